import Verif.ChainSpec
import Verif.Demo

/-!
# The chains of the unique tables and of the free nodes

The nodes of a unique table hang together by a pointer stored in the nodes; the free nodes of the pool use the same
pointer.  A lookup, an insertion, a sweep and a swap of two levels all rewrite these pointers, some of them while walking
along them.
-/

namespace Teddy
namespace Properties

open SM Spec

variable {P : Setup} {w : World} {σ : SState}

theorem walk_of_seg {next : Ptr → Option Ptr} : ∀ {l : List Ptr} {cur : Option Ptr}, Seg next cur l → Walk next cur l
  | [], _, h => by cases h; exact .stop
  | p :: l, _, h => by
    obtain ⟨rfl, h⟩ := h
    exact .step (walk_of_seg h)

/-! ### C74 chains -/

/-- Whatever calls have been made: in the table of a variable every walk from a bucket along the pointers ends, the walks
from all buckets together meet every node of that variable exactly once and nothing else, and a node is met from the
bucket its hash selects; the number of nodes the table keeps is right. -/
theorem C74_tables (hP : P.OK) (h : Reachable P w σ) {i : Nat} (hi : i < P.c.n) :
    ∃ chain : Nat → List Ptr,
      (∀ b, b < (w.mgr.tables i).cap → Walk w.mgr.link.next (w.mgr.link.head i b) (chain b)) ∧
      ((List.range (w.mgr.tables i).cap).flatMap chain).Nodup ∧
      (∀ p, (∃ b, b < (w.mgr.tables i).cap ∧ p ∈ chain b) ↔
        w.mgr.used p = true ∧ ∃ sons, w.mgr.kind p = .inner i sons) ∧
      (∀ b, b < (w.mgr.tables i).cap → ∀ p ∈ chain b, ∀ sons, w.mgr.kind p = .inner i sons →
        b = P.c.hash sons % (w.mgr.tables i).cap) ∧
      (w.mgr.tables i).size = ((List.range (w.mgr.tables i).cap).flatMap chain).length := by
  have I := (reachable_rel hP h).good.inv
  have W := I.tabWF i hi
  refine ⟨(w.mgr.tables i).buckets, fun b hb => walk_of_seg (I.link.tab i hi b hb), W.nodup_nodes, fun p => ?_, ?_,
    W.size_eq⟩
  · constructor
    · intro hp
      have hm := Table.mem_nodes_iff.2 hp
      exact ⟨I.tabUsed hi hm, I.tabKind i hi p hm⟩
    · rintro ⟨hu, ss, hk⟩
      rcases I.inTable hu hk with hm | hm
      · exact Table.mem_nodes_iff.1 hm
      · cases hm
  · intro b hb p hp sons hk
    have := W.placed b hb p hp
    rw [← this]
    simp only [Mgr.hashOf, Mgr.sonsOf, hk]
    rfl

example : ∃ w σ, Reachable bdd3 w σ ∧ ∃ chain : Nat → List Ptr, ∀ b, b < (w.mgr.tables 1).cap →
    Walk w.mgr.link.next (w.mgr.link.head 1 b) (chain b) := by
  obtain ⟨w, h⟩ := bdd3_world
  obtain ⟨chain, hc, _⟩ := C74_tables bdd3_ok h (i := 1) (by decide)
  exact ⟨w, _, h, chain, hc⟩

/-- The nodes met by walking from the buckets of one table, and those met by walking from the free node in front, at the
end of a program. -/
def walks (P : Setup) (ks : List Call) (i : Nat) : Option (List Ptr × List Ptr) :=
  match construct P.c P.pool P.order with
  | .error _ => none
  | .ok m =>
    match execAll P.c ks ⟨m, []⟩ with
    | .error _ => none
    | .ok (_, w) =>
      match Links.followAll w.mgr.link.next (w.mgr.next + 1) (w.mgr.link.head i) (List.range (w.mgr.tables i).cap),
        Links.follow w.mgr.link.next (w.mgr.next + 1) w.mgr.free.head? with
      | .ok l, .ok l' => some (l, l')
      | _, _ => none

/-- There are nodes on the chains, also after levels have been swapped and nodes have been taken back. -/
example : (walks bdd3 [.variableD 0, .variableD 1, .variableD 2, .apply Op.XOR 0 1, .apply Op.XOR 3 2, .drop 0, .drop 3,
    .forceGc, .forceReorder] 0).map (fun r => (decide (0 < r.1.length), decide (0 < r.2.length))) = some (true, true) := by
  decide +kernel

/-- The walk along the free nodes ends; it meets exactly the nodes that have been handed out and taken back. -/
theorem C74_free (hP : P.OK) (h : Reachable P w σ) :
    ∃ l, Walk w.mgr.link.next w.mgr.free.head? l ∧ l.Nodup ∧
      ∀ p, p ∈ l ↔ p < w.mgr.next ∧ w.mgr.used p = false := by
  have I := (reachable_rel hP h).good.inv
  exact ⟨_, walk_of_seg I.link.free, I.pool.freeNodup, fun p =>
    ⟨I.pool.freeUnused p, fun hp => I.pool.allFree p hp.1 hp.2⟩⟩

example : ∃ w σ, Reachable bdd3 w σ ∧ ∃ l, Walk w.mgr.link.next w.mgr.free.head? l ∧
    ∀ p, p ∈ l ↔ p < w.mgr.next ∧ w.mgr.used p = false := by
  obtain ⟨w, h⟩ := bdd3_world
  obtain ⟨l, h1, _, h2⟩ := C74_free bdd3_ok h
  exact ⟨w, _, h, l, h1, h2⟩

/-- A lookup ends; it finds a node with the given variable and sons if there is one. -/
theorem C74_find (hP : P.OK) (h : Reachable P w σ) {i : Nat} (hi : i < P.c.n) (sons : List Ptr) :
    ∃ r, tableFind P.c i sons w.mgr = .ok (r, w.mgr) ∧
      (∀ p, r = some p → w.mgr.used p = true ∧ w.mgr.kind p = .inner i sons) ∧
      (r = none → ∀ p, w.mgr.used p = true → w.mgr.kind p ≠ .inner i sons) := by
  have I := (reachable_rel hP h).good.inv
  have W := I.tabWF i hi
  refine ⟨_, tableFind_run I hi, ?_, ?_⟩
  · intro p hp
    obtain ⟨hm, he⟩ := Table.find_some W.cap_pos hp
    obtain ⟨ss, hk⟩ := I.tabKind i hi p hm
    refine ⟨I.tabUsed hi hm, ?_⟩
    rw [hk]
    simp only [Mgr.sonsOf, hk] at he
    rw [he]
  · intro hn p hu hk
    rcases I.inTable hu hk with hm | hm
    · have hb := W.toWFb.mem_nodes.1 hm
      unfold Table.find at hn
      rw [List.find?_eq_none] at hn
      have hs : w.mgr.sonsOf p = sons := by simp [Mgr.sonsOf, hk]
      simp only [Mgr.hashOf, hs] at hb
      exact hn p hb (by simp [hs])
    · cases hm

example : ∃ w σ, Reachable mdd3 w σ ∧ ∃ r, tableFind mdd3.c 1 [0, 1, 2] w.mgr = .ok (r, w.mgr) := by
  obtain ⟨w, h⟩ := mdd3_world
  obtain ⟨r, e, _⟩ := C74_find mdd3_ok h (i := 1) (by decide) [0, 1, 2]
  exact ⟨w, _, h, r, e⟩

/-- No walk a call makes goes on for ever, meets a null pointer or a pointer that does not belong to the chain: the call
does not fail at all. -/
theorem C74_calls (hP : P.OK) (h : Reachable P w σ) {k : Call} (hk : Adm P σ k) (ha : k.defers = true → σ.auto = false) :
    ∃ o w', exec P.c k w = .ok (o, w') := by
  obtain ⟨o, w', e, _⟩ := sim (reachable_rel hP h) hk ha
  exact ⟨o, w', e⟩

example : ∃ w σ, Reachable bdd3 w σ ∧ ∃ o w', exec bdd3.c .forceReorder w = .ok (o, w') := by
  obtain ⟨w, h⟩ := bdd3_world
  exact ⟨w, _, h, C74_calls bdd3_ok h (k := .forceReorder) (by trivial) (by decide)⟩

end Properties
end Teddy

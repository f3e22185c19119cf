import Verif.Proofs.TableLemmas
import Verif.Proofs.SortLemmas
import Verif.Proofs.ArithLemmas
import Mathlib.Data.Nat.Prime.Basic

/-!
# Hash tables, sorting and integer arithmetic
-/

namespace Teddy
namespace Properties

/-! ### C38 unique table -/

/-- Histories of a unique table, with the nodes it ought to contain (a duplicate-free list).
`sonsOf p` are the sons of node `p`, `hash` is any function of the sons. -/
inductive TableHistory (sonsOf : Ptr → List Ptr) (hash : List Ptr → Nat) : Table → List Ptr → Prop
  | make (desired : Nat) : TableHistory sonsOf hash (Table.make desired) []
  | insert {t l p} : TableHistory sonsOf hash t l → p ∉ l →
      TableHistory sonsOf hash (t.insert p (hash (sonsOf p))) (p :: l)
  | erase {t t' l p} : TableHistory sonsOf hash t l → p ∈ l →
      t.erase p (hash (sonsOf p)) = .ok t' → TableHistory sonsOf hash t' (l.erase p)
  | eraseAt {t t' l p b} : TableHistory sonsOf hash t l → b < t.cap → p ∈ t.buckets b →
      t.eraseAt b p = .ok t' → TableHistory sonsOf hash t' (l.erase p)
  | adjust {t l} : TableHistory sonsOf hash t l →
      TableHistory sonsOf hash (t.adjustCapacity fun p => hash (sonsOf p)) l
  | clear {t l} : TableHistory sonsOf hash t l → TableHistory sonsOf hash t.clear []
  | merge {t o l m} : TableHistory sonsOf hash t l → TableHistory sonsOf hash o m →
      (∀ p ∈ m, p ∉ l) →
      TableHistory sonsOf hash (t.merge o fun p => hash (sonsOf p)) (m ++ l)

theorem TableHistory.wf {sonsOf : Ptr → List Ptr} {hash : List Ptr → Nat} {t : Table} {l : List Ptr}
    (h : TableHistory sonsOf hash t l) :
    t.WF (fun p => hash (sonsOf p)) ∧ t.nodes.Perm l := by
  induction h with
  | make d => exact ⟨Table.make_WF d _, by simp [Table.make, Table.nodes]⟩
  | @insert t l p _ hp ih =>
      have hn : p ∉ t.nodes := fun h => hp (ih.2.mem_iff.1 h)
      exact ⟨ih.1.insert hn, (Table.insert_nodes ih.1.cap_pos _ _).trans (ih.2.cons _)⟩
  | @erase t t' l p _ hp e ih =>
      have hm := ih.1.toWFb.mem_nodes.1 (ih.2.mem_iff.2 hp)
      obtain ⟨t'', e', w, pm, _⟩ := Table.eraseAt_ok ih.1 (Nat.mod_lt _ ih.1.cap_pos) hm
      unfold Table.erase at e
      rw [e'] at e
      cases e
      exact ⟨w, (List.cons_perm_iff_perm_erase.1 (pm.symm.trans ih.2)).2⟩
  | @eraseAt t t' l p b _ hb hp e ih =>
      obtain ⟨t'', e', w, pm, _⟩ := Table.eraseAt_ok ih.1 hb hp
      rw [e'] at e
      cases e
      exact ⟨w, (List.cons_perm_iff_perm_erase.1 (pm.symm.trans ih.2)).2⟩
  | adjust _ ih => exact ⟨ih.1.adjustCapacity, (Table.adjustCapacity_spec ih.1.toWFb).2.1.trans ih.2⟩
  | clear _ ih => exact ⟨ih.1.clear, by simp [Table.clear, Table.nodes]⟩
  | merge _ _ hd ih ih' =>
      obtain ⟨a, b⟩ := Table.merge_spec ih.1 ih'.1.toWFb.nodup_nodes ih'.1.size_eq fun p hp hp' =>
        hd p (ih'.2.mem_iff.1 hp) (ih.2.mem_iff.1 hp')
      exact ⟨a, b.trans (ih'.2.append ih.2)⟩

/-- After any history, for any hash function: iteration visits every stored node exactly once, `size`
counts them, `find` finds a node with the given sons iff one is stored, and erasing a stored node
never fails. -/
theorem C38_unique_table {sonsOf : Ptr → List Ptr} {hash : List Ptr → Nat} {t : Table} {l : List Ptr}
    (h : TableHistory sonsOf hash t l) :
    t.nodes.Perm l ∧ t.nodes.Nodup ∧ t.size = l.length ∧
    (∀ sons p, t.find sonsOf (hash sons) sons = some p → p ∈ l ∧ sonsOf p = sons) ∧
    (∀ sons, t.find sonsOf (hash sons) sons = none ↔ ∀ p ∈ l, sonsOf p ≠ sons) ∧
    (∀ p ∈ l, ∃ t', t.erase p (hash (sonsOf p)) = .ok t') := by
  obtain ⟨w, pm⟩ := h.wf
  refine ⟨pm, w.toWFb.nodup_nodes, w.size_eq.trans pm.length_eq, ?_, ?_, ?_⟩
  · intro sons p e
    obtain ⟨a, b⟩ := Table.find_some w.cap_pos e
    exact ⟨pm.mem_iff.1 a, b⟩
  · intro sons
    constructor
    · intro e p hp
      exact Table.find_none w.toWFb e p (pm.mem_iff.2 hp)
    · intro hn
      cases e : t.find sonsOf (hash sons) sons with
      | none => rfl
      | some p =>
          obtain ⟨a, b⟩ := Table.find_some w.cap_pos e
          exact absurd b (hn p (pm.mem_iff.1 a))
  · intro p hp
    have hm := w.toWFb.mem_nodes.1 (pm.mem_iff.2 hp)
    obtain ⟨t'', e', _⟩ := Table.eraseAt_ok w (Nat.mod_lt _ w.cap_pos) hm
    exact ⟨t'', e'⟩

/-- Nodes 1, 2, 3 with constant hash (everything collides), 2 erased. -/
example : ∃ t, TableHistory (fun p => [p, p + 1]) (fun _ => 5) t [3, 1] ∧
    t.find (fun p => [p, p + 1]) 5 [3, 4] = some 3 := by
  have h : TableHistory (fun p => [p, p + 1]) (fun _ => 5)
      ((((Table.make 10).insert 1 5).insert 2 5).insert 3 5) [3, 2, 1] :=
    .insert (.insert (.insert (.make 10) (by decide)) (by decide)) (by decide)
  refine ⟨_, .erase (p := 2) h (by decide) rfl, ?_⟩
  decide +kernel

/-! ### C39 apply cache -/

/-- Histories of an apply cache, with the list of all results ever put, the most recent first. -/
inductive CacheHistory (hash : Nat → Ptr → Ptr → Nat) : Cache → List CacheEntry → Prop
  | make (desired : Nat) : CacheHistory hash (Cache.make desired) []
  | put {ca l} (e : CacheEntry) : CacheHistory hash ca l → CacheHistory hash (ca.put hash e) (e :: l)
  | removeUnused {ca l} (used : Ptr → Bool) : CacheHistory hash ca l →
      CacheHistory hash (ca.removeUnused used) l
  | grow {ca l} (approx : Nat) : CacheHistory hash ca l →
      CacheHistory hash (ca.growCapacity hash approx) l
  | clear {ca l} : CacheHistory hash ca l → CacheHistory hash ca.clear l

/-- The most recent entry with the given key. -/
def lastPut (l : List CacheEntry) (op : Nat) (lhs rhs : Ptr) : Option CacheEntry :=
  l.find? fun e => e.op == op && e.lhs == lhs && e.rhs == rhs

/-- Every stored entry sits where its key hashes to and is the most recent one with its key. -/
def Fresh (hash : Nat → Ptr → Ptr → Nat) (ca : Cache) (l : List CacheEntry) : Prop :=
  ∀ i e, ca.slots i = some e →
    i = hash e.op e.lhs e.rhs % ca.cap ∧ lastPut l e.op e.lhs e.rhs = some e

theorem Fresh.putAll {hash : Nat → Ptr → Ptr → Nat} {l : List CacheEntry}
    {old : Nat → Option CacheEntry}
    (ho : ∀ i e, old i = some e → lastPut l e.op e.lhs e.rhs = some e) :
    ∀ (is : List Nat) (ca : Cache), Fresh hash ca l → Fresh hash (Cache.putAll hash old is ca) l := by
  intro is
  induction is with
  | nil => intro ca h; exact h
  | cons i is ih =>
      intro ca h
      unfold Cache.putAll
      split
      · rename_i e he
        refine ih _ ?_
        intro j e' hj
        simp only [Cache.put, upd_apply] at hj ⊢
        split at hj
        · rename_i hji
          cases hj
          exact ⟨hji, ho i _ he⟩
        · exact h j e' hj
      · exact ih _ h

theorem CacheHistory.fresh {hash : Nat → Ptr → Ptr → Nat} {ca : Cache} {l : List CacheEntry}
    (h : CacheHistory hash ca l) : Fresh hash ca l := by
  induction h with
  | make d => intro i e h; simp [Cache.make] at h
  | @put ca l e _ ih =>
      intro i e' hi
      simp only [Cache.put, upd_apply] at hi ⊢
      split at hi
      · rename_i hii
        cases hi
        exact ⟨hii, by simp [lastPut]⟩
      · rename_i hii
        obtain ⟨a, b⟩ := ih i e' hi
        refine ⟨a, ?_⟩
        unfold lastPut at b ⊢
        rw [List.find?_cons, b]
        split
        · rename_i hk
          simp only [Bool.and_eq_true, beq_iff_eq] at hk
          exfalso
          apply hii
          rw [a, hk.1.1, hk.1.2, hk.2]
        · rfl
  | @removeUnused ca l used _ ih =>
      intro i e hi
      simp only [Cache.removeUnused] at hi ⊢
      split at hi
      · rename_i e' he
        split at hi
        · cases hi; exact ih i _ he
        · cases hi
      · cases hi
  | @grow ca l approx _ ih =>
      unfold Cache.growCapacity
      dsimp only
      split
      · exact Fresh.putAll (fun i e he => (ih i e he).2) _ _ (by intro i e h; simp at h)
      · exact ih
  | clear _ ih => intro i e h; simp [Cache.clear] at h

/-- A hit returns the result that was put most recently for exactly this key. -/
theorem C39_apply_cache {hash : Nat → Ptr → Ptr → Nat} {ca : Cache} {l : List CacheEntry}
    (h : CacheHistory hash ca l) {op : Nat} {lhs rhs r : Ptr}
    (hit : ca.find hash op lhs rhs = some r) : lastPut l op lhs rhs = some ⟨op, lhs, rhs, r⟩ := by
  obtain ⟨i, hi⟩ := Cache.find_some hit
  exact (h.fresh i _ hi).2

/-- After `remove_unused` no hit mentions a node that is not in use. -/
theorem C39_remove_unused {hash : Nat → Ptr → Ptr → Nat} {ca : Cache} {used : Ptr → Bool} {op : Nat}
    {lhs rhs r : Ptr} (hit : (ca.removeUnused used).find hash op lhs rhs = some r) :
    used lhs = true ∧ used rhs = true ∧ used r = true ∧ ca.find hash op lhs rhs = some r := by
  obtain ⟨i, hi⟩ := Cache.find_some hit
  obtain ⟨h1, h2, h3⟩ := Cache.removeUnused_used hi
  refine ⟨h1, h2, h3, ?_⟩
  unfold Cache.find at hit ⊢
  simp only [Cache.removeUnused] at hit
  cases e : ca.slots (hash op lhs rhs % ca.cap) with
  | none => rw [e] at hit; simp at hit
  | some en =>
      rw [e] at hit
      dsimp only at hit ⊢
      split at hit
      · rename_i e2 he2
        split at he2
        · cases he2; exact hit
        · cases he2
      · cases hit

/-- The value just put is found. -/
theorem C39_put_find {hash : Nat → Ptr → Ptr → Nat} (ca : Cache) (e : CacheEntry) :
    (ca.put hash e).find hash e.op e.lhs e.rhs = some e.res := by
  simp [Cache.put, Cache.find, upd_same]

/-- Two puts with one key, then a rehash: the second result is found. -/
example : ∃ ca l, CacheHistory (fun a b c => a + b + c) ca l ∧
    ca.find (fun a b c => a + b + c) 1 7 9 = some 13 ∧ ca.cap = 617 := by
  refine ⟨_, _, .grow 400 (.put ⟨1, 7, 9, 13⟩ (.put ⟨1, 7, 9, 11⟩ (.make 3))), ?_, ?_⟩ <;>
    decide +kernel

/-! ### C40 sort -/

/-- `utils::sort` returns a permutation of its input in which no later element is smaller than an
earlier one, for every strict weak order. -/
theorem C40_sort {α : Type} {cmp : α → α → Bool}
    (hasym : ∀ a b, cmp a b = true → cmp b a = false)
    (htrans : ∀ a b c, cmp a b = false → cmp b c = false → cmp a c = false)
    (n : Nat) (xs : Nat → α) :
    ((List.range n).map (heapSort cmp n xs)).Perm ((List.range n).map xs) ∧
    ∀ i j, i < j → j < n → cmp (heapSort cmp n xs j) (heapSort cmp n xs i) = false := by
  obtain ⟨h1, h2⟩ := SortLemmas.heapSort_spec ⟨hasym, htrans⟩ n xs
  exact ⟨h2.list, h1⟩

/-- Sorting 3, 1, 2, 5, 4 by `<`. -/
example : (List.range 5).map (heapSort (fun a b => decide (a < b)) 5 fun i => [3, 1, 2, 5, 4].getD i 0)
    = [1, 2, 3, 4, 5] ∧
    (∀ a b : Nat, decide (a < b) = true → decide (b < a) = false) ∧
    (∀ a b c : Nat, decide (a < b) = false → decide (b < c) = false → decide (a < c) = false) := by
  refine ⟨by decide +kernel, ?_, ?_⟩
  · intro a b h; simp at h ⊢; omega
  · intro a b c h h'; simp at h h' ⊢; omega

/-! ### C41 integer powers and domain products -/

/-- `int_pow(b, e)` is `b ^ e` if that fits `int32`. -/
theorem C41_int_pow {b e : Nat} (hb : 1 ≤ b) (h : b ^ e ≤ 2147483647) :
    intPow32 b e = .ok ((b ^ e : Nat) : Int) := intPow32_ok hb h

/-- With variable domains the product of the domains is right if it fits `int64`; with the fixed
domain 2 if it is below 2^63; with another fixed domain only if it fits `int32`
(see `C41_overflow`). -/
theorem C41_domain_product_partial {fixed : Option Nat} {doms : List Nat} (hpos : ∀ d ∈ doms, 1 ≤ d)
    (hfix : ∀ m, fixed = some m → ∀ d ∈ doms, d = m)
    (hvar : fixed = none → doms.prod ≤ 9223372036854775807)
    (hbin : fixed = some 2 → doms.prod < 2 ^ 63)
    (hoth : ∀ m, fixed = some m → m ≠ 2 → doms.prod ≤ 2147483647) :
    domainProductOf fixed doms = .ok (doms.prod : Int) := by
  refine domainProductOf_ok hpos hfix ?_
  have hconst : ∀ m, fixed = some m → doms.prod = m ^ doms.length := by
    intro m hm
    have e : doms = List.replicate doms.length m :=
      List.eq_replicate_iff.2 ⟨rfl, hfix m hm⟩
    conv => lhs; rw [e]
    simp
  unfold ProdFits
  cases fixed with
  | none => exact hvar rfl
  | some m =>
      dsimp only
      by_cases hm : m = 2
      · subst hm
        rw [if_pos rfl]
        have := hbin rfl
        rw [hconst 2 rfl] at this
        exact (Nat.pow_lt_pow_iff_right (by omega)).1 this
      · rw [if_neg hm, ← hconst m rfl]
        exact hoth m rfl hm

example : domainProductOf none [3, 4, 5] = .ok 60 ∧ domainProductOf (some 3) [3, 3, 3, 3] = .ok 81 ∧
    (∀ d ∈ [3, 4, 5], 1 ≤ d) ∧ [3, 4, 5].prod ≤ 9223372036854775807 := by decide +kernel

/-- **Violation of C41.** 20 ternary variables: 3^20 fits the `int64` result, but the power is
computed in `int32` and overflows. -/
theorem C41_overflow : domainProductOf (some 3) (List.replicate 20 3) = .error .overflow ∧
    (List.replicate 20 3).prod ≤ 9223372036854775807 := by decide +kernel

/-! ### C46 capacities -/

/-- The capacity for a requested size is the smallest entry of the table that exceeds it, or the
largest entry if none does. -/
theorem C46_capacity (desired : Nat) :
    gteCapacity desired ∈ Capacities ∧
    ((gteCapacity desired > desired ∧ ∀ c ∈ Capacities, c > desired → gteCapacity desired ≤ c) ∨
      ∀ c ∈ Capacities, c ≤ desired ∧ c ≤ gteCapacity desired) := by
  have hs : Capacities.Pairwise (· < ·) := by decide
  unfold gteCapacity
  split
  · rename_i c h
    have hm := List.mem_of_find?_eq_some h
    have hp : c > desired := by simpa using List.find?_some h
    refine ⟨hm, .inl ⟨hp, ?_⟩⟩
    intro d hd hdd
    obtain ⟨-, as, bs, e, hall⟩ := List.find?_eq_some_iff_append.1 h
    rw [e] at hd hs
    rcases List.mem_append.1 hd with hd | hd
    · exact absurd hdd (by simpa using hall d hd)
    · rcases List.mem_cons.1 hd with rfl | hd
      · exact Nat.le_refl _
      · exact Nat.le_of_lt ((List.pairwise_cons.1 (List.pairwise_append.1 hs).2.1).1 d hd)
  · rename_i h
    refine ⟨List.getLast_mem _, .inr ?_⟩
    intro c hc
    refine ⟨by simpa using List.find?_eq_none.1 h c hc, ?_⟩
    revert c
    decide

/-- No number from 2 to `s + 1` divides `n`. -/
def noDivisor (n s : Nat) : Bool :=
  Nat.rec true (fun k r => cond (Nat.beq (n % (k + 2)) 0) false r) s

theorem noDivisor_spec {n : Nat} : ∀ s, noDivisor n s = true → ∀ k, 2 ≤ k → k < s + 2 → ¬ k ∣ n := by
  intro s
  induction s with
  | zero => intro _ k h1 h2; omega
  | succ s ih =>
      intro h k h1 h2 hd
      have e : noDivisor n (s + 1) = cond (Nat.beq (n % (s + 2)) 0) false (noDivisor n s) := rfl
      rw [e] at h
      cases hb : Nat.beq (n % (s + 2)) 0 with
      | true => rw [hb] at h; cases h
      | false =>
          rw [hb] at h
          by_cases hk : k = s + 2
          · subst hk
            rw [Nat.mod_eq_zero_of_dvd hd] at hb
            cases hb
          · exact ih h k h1 (by omega) hd

/-- All capacities are prime. -/
theorem C46_prime : ∀ c ∈ Capacities, Nat.Prime c := by
  have h : (Capacities.all fun c => Nat.ble 2 c && noDivisor c c.sqrt) = true := by decide +kernel
  intro c hc
  have hc' := List.all_eq_true.1 h c hc
  rw [Bool.and_eq_true] at hc'
  refine Nat.prime_def_le_sqrt.2 ⟨Nat.le_of_ble_eq_true hc'.1, fun m hm hms => ?_⟩
  exact noDivisor_spec _ hc'.2 m hm (by omega)

/-- `adjust_capacity` keeps exactly the stored nodes, and afterwards the table is no smaller. -/
theorem C46_no_loss {sonsOf : Ptr → List Ptr} {hash : List Ptr → Nat} {t : Table} {l : List Ptr}
    (h : TableHistory sonsOf hash t l) :
    (t.adjustCapacity fun p => hash (sonsOf p)).nodes.Perm t.nodes ∧
    (t.adjustCapacity fun p => hash (sonsOf p)).size = t.size ∧
    t.cap ≤ (t.adjustCapacity fun p => hash (sonsOf p)).cap ∧
    gteCapacity (t.size * 4 / 3) ≤ (t.adjustCapacity fun p => hash (sonsOf p)).cap := by
  have w := h.wf.1
  obtain ⟨-, h2, h3⟩ := Table.adjustCapacity_spec w.toWFb
  refine ⟨h2, h3, ?_⟩
  unfold Table.adjustCapacity
  dsimp only
  split
  · rename_i hc
    rw [(Table.rehash_spec w.toWFb (gteCapacity_pos _)).2.2.2]
    omega
  · omega

/-- Requests at, just below and above a table entry. -/
example : gteCapacity 306 = 307 ∧ gteCapacity 307 = 617 ∧ gteCapacity 3000000000 = 2602722289 := by
  decide

end Properties
end Teddy

import Verif.Proofs.Gc
import Verif.ApiSpec

/-! Semantics of nodes, canonicity, correctness of the apply cache. -/

namespace Teddy

open SM

/-- Following the sons chosen by `x` from `p` ends in a terminal with value `v`. -/
inductive Ev (kind : Ptr → Kind) (x : Asg) : Ptr → Int → Prop
  | leaf {p : Ptr} {v : Int} : kind p = .leaf v → Ev kind x p v
  | inner {p q : Ptr} {i : Nat} {ss : List Ptr} {v : Int} :
      kind p = .inner i ss → ss[x i]? = some q → Ev kind x q v → Ev kind x p v

/-- Node `p` represents the function `f`. -/
def Den (c : Cfg) (s : Mgr) (p : Ptr) (f : Asg → Int) : Prop :=
  ∀ x, Valid c x → Ev s.kind x p (f x)

/-- No redundant and no duplicate internal nodes. -/
structure Canon (s : Mgr) : Prop where
  nonred : ∀ p i ss, s.used p = true → s.kind p = .inner i ss → isRedundant ss = false
  nodup : ∀ p q i ss, s.used p = true → s.used q = true →
    s.kind p = .inner i ss → s.kind q = .inner i ss → p = q

/-- The entry's nodes exist and its result is the operation applied to the operands. -/
structure EntryOK (c : Cfg) (Γ : Nat → BinOp) (s : Mgr) (e : CacheEntry) : Prop where
  lhs : s.used e.lhs = true
  rhs : s.used e.rhs = true
  res : s.used e.res = true
  level : min (s.levelOf c e.lhs) (s.levelOf c e.rhs) ≤ s.levelOf c e.res
  sem : ∀ x, Valid c x → ∀ a b, Ev s.kind x e.lhs a → Ev s.kind x e.rhs b →
    ∃ v, (Γ e.op).fn a b = .ok v ∧ Ev s.kind x e.res v

/-- All entries of the apply cache are correct. -/
def CacheOK (c : Cfg) (Γ : Nat → BinOp) (s : Mgr) : Prop := s.cache.All (EntryOK c Γ s)

/-- Growth of the node pool is possible when it is needed. -/
structure PoolOK (c : Cfg) (s : Mgr) : Prop where
  extra : 0 < c.extra
  den : 0 < s.gcRatio.2
  thr : s.gcRatio.2 ≤ s.gcRatio.1 * s.poolEnd

section
variable {c : Cfg} {ext : Ptr → Nat} {tmp : List Ptr} {s : Mgr}

theorem Ev.det {kind : Ptr → Kind} {x : Asg} {p : Ptr} {v w : Int} (h : Ev kind x p v)
    (h' : Ev kind x p w) : v = w := by
  induction h with
  | leaf hk =>
      cases h' with
      | leaf hk' => rw [hk] at hk'; cases hk'; rfl
      | inner hk' => rw [hk] at hk'; cases hk'
  | inner hk hq _ ih =>
      cases h' with
      | leaf hk' => rw [hk] at hk'; cases hk'
      | inner hk' hq' h2 =>
          rw [hk] at hk'; cases hk'
          rw [hq] at hq'; cases hq'
          exact ih h2

/-- Evaluation only looks at used nodes. -/
theorem Ev.transfer {s s' : Mgr} (S : Ptr → Prop)
    (hS : ∀ p, S p → s'.kind p = s.kind p)
    (hc : ∀ p i ss, S p → s.kind p = .inner i ss → ∀ q ∈ ss, S q) {x : Asg} {p : Ptr} {v : Int}
    (hp : S p) (h : Ev s.kind x p v) : Ev s'.kind x p v := by
  induction h with
  | leaf hk => exact .leaf (by rw [hS _ hp]; exact hk)
  | inner hk hq _ ih =>
      exact .inner (by rw [hS _ hp]; exact hk) hq
        (ih (hc _ _ _ hp hk _ (List.mem_of_getElem? hq)))

theorem Ev.transfer_iff {s s' : Mgr} (S : Ptr → Prop)
    (hS : ∀ p, S p → s'.kind p = s.kind p)
    (hc : ∀ p i ss, S p → s.kind p = .inner i ss → ∀ q ∈ ss, S q) {x : Asg} {p : Ptr} {v : Int}
    (hp : S p) : Ev s'.kind x p v ↔ Ev s.kind x p v := by
  constructor
  · refine Ev.transfer (s := s') (s' := s) S (fun p hp => (hS p hp).symm) ?_ hp
    intro q i ss hq hk
    exact hc q i ss hq (by rw [← hS q hq]; exact hk)
  · exact Ev.transfer S hS hc hp

theorem levelOf_le (h : Inv c ext tmp s) {p : Ptr} (hp : s.used p = true) :
    s.levelOf c p ≤ c.n := by
  unfold Mgr.levelOf
  split
  · omega
  · rename_i i ss hk
    have := h.order.i2l_lt i (h.sons p i ss hp hk).1
    omega

/-- Every used node has a value under every valid assignment. -/
theorem Ev.total (h : Inv c ext tmp s) (ho : Ordered c s) {x : Asg} (hx : Valid c x) :
    ∀ p, s.used p = true → ∃ v, Ev s.kind x p v := by
  have key : ∀ d p, c.n - s.levelOf c p = d → s.used p = true → ∃ v, Ev s.kind x p v := by
    intro d
    induction d using Nat.strong_induction_on with
    | _ d ih =>
        intro p hd hp
        cases hk : s.kind p with
        | leaf v => exact ⟨v, .leaf hk⟩
        | inner i ss =>
            obtain ⟨hi, hlen, hu⟩ := h.sons p i ss hp hk
            have hlt : x i < ss.length := by rw [hlen]; exact hx i hi
            have hmem : ss[x i] ∈ ss := List.getElem_mem hlt
            have hl := ho p i ss _ hp hk hmem
            have hle := levelOf_le h (hu _ hmem)
            obtain ⟨v, hv⟩ := ih _ (by omega) ss[x i] rfl (hu _ hmem)
            exact ⟨v, .inner hk (List.getElem?_eq_getElem hlt) hv⟩
  exact fun p hp => key _ p rfl hp

theorem isRedundant_iff {a : Ptr} {l : List Ptr} :
    isRedundant (a :: l) = true ↔ ∀ b ∈ l, b = a := by
  induction l generalizing a with
  | nil => simp [isRedundant]
  | cons b l ih =>
      simp only [isRedundant, Bool.and_eq_true, beq_iff_eq, ih, List.mem_cons, forall_eq_or_imp]
      constructor
      · rintro ⟨rfl, h⟩; exact ⟨rfl, h⟩
      · rintro ⟨rfl, h⟩; exact ⟨rfl, h⟩

/-- What the primitives of an operation may do: protected nodes stay. -/
structure Keeps (ext : Ptr → Nat) (tmp : List Ptr) (s s' : Mgr) : Prop where
  prot : ∀ p, Prot ext tmp s p → Prot ext tmp s' p
  kind : ∀ p, Prot ext tmp s p → s'.kind p = s.kind p
  i2l : s'.idx2lvl = s.idx2lvl
  l2i : s'.lvl2idx = s.lvl2idx
  gcRatio : s'.gcRatio = s.gcRatio
  auto : s'.autoReorder = s.autoReorder
  deferred : s.autoReorder = false → s'.deferred = s.deferred
  poolEnd : s.poolEnd ≤ s'.poolEnd

theorem Keeps.refl (s : Mgr) : Keeps ext tmp s s :=
  ⟨fun _ h => h, fun _ _ => rfl, rfl, rfl, rfl, rfl, fun _ => rfl, Nat.le_refl _⟩

theorem Keeps.trans {s1 s2 s3 : Mgr} (a : Keeps ext tmp s1 s2) (b : Keeps ext tmp s2 s3) :
    Keeps ext tmp s1 s3 where
  prot p h := b.prot p (a.prot p h)
  kind p h := (b.kind p (a.prot p h)).trans (a.kind p h)
  i2l := b.i2l.trans a.i2l
  l2i := b.l2i.trans a.l2i
  gcRatio := b.gcRatio.trans a.gcRatio
  auto := b.auto.trans a.auto
  deferred h := (b.deferred (a.auto.trans h)).trans (a.deferred h)
  poolEnd := a.poolEnd.trans b.poolEnd

theorem Keeps.ev {s' : Mgr} (k : Keeps ext tmp s s') {x : Asg} {p : Ptr} {v : Int}
    (hp : Prot ext tmp s p) (h : Ev s.kind x p v) : Ev s'.kind x p v :=
  Ev.transfer (Prot ext tmp s) k.kind (fun _ _ _ hp hk _ hq => .son hp hk hq) hp h

theorem Keeps.den {s' : Mgr} (k : Keeps ext tmp s s') {p : Ptr} {f : Asg → Int}
    (hp : Prot ext tmp s p) (h : Den c s p f) : Den c s' p f :=
  fun x hx => k.ev hp (h x hx)

theorem Keeps.levelOf {s' : Mgr} (k : Keeps ext tmp s s') {p : Ptr}
    (hp : Prot ext tmp s p) : s'.levelOf c p = s.levelOf c p := by
  simp [Mgr.levelOf, k.kind p hp, k.i2l]

theorem PoolOK.keeps {s' : Mgr} (h : PoolOK c s) (k : Keeps ext tmp s s') : PoolOK c s' := by
  refine ⟨h.extra, by rw [k.gcRatio]; exact h.den, ?_⟩
  rw [k.gcRatio]
  exact h.thr.trans (Nat.mul_le_mul_left _ k.poolEnd)

end

end Teddy

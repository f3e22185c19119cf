import Verif.Proofs.Unmarked
import Verif.Proofs.SeriesParallel
import Verif.Proofs.Observe
import Verif.SeriesParallelSpec

/-! `to_mnf` of a derivative that need not be layered lies between the derivative and its downward closure. -/

namespace Teddy

open SM Spec

section
variable {E : Env} {ext : Ptr → Nat} {s : Mgr}

/-- A value that is 1 where `F` holds and 0 where `U` does not; it is 1 everywhere if `U` holds everywhere. -/
def Between (c : Cfg) (F U : Asg → Prop) (x : Asg) (v : Int) : Prop :=
  (v = 1 ∧ U x) ∨ (v = 0 ∧ ¬ F x ∧ ¬ ∀ y, Valid c y → U y)

theorem Between.congr {c : Cfg} {F F' U U' : Asg → Prop} {x : Asg} {v : Int} (h : Between c F U x v) (hF : ∀ x, F' x ↔ F x)
    (hU : ∀ x, U' x ↔ U x) : Between c F' U' x v := by
  unfold Between at h ⊢
  rw [hF]
  simp only [hU]
  exact h

theorem between_leaf {c : Cfg} {p : Ptr} {v : Int} (hk : s.kind p = .leaf v) (hv : v = 0 ∨ v = 1) {x : Asg}
    (hx : Valid c x) : Between c (fun x => Ev s.kind x p 1) (Up c s p) x v := by
  rcases hv with rfl | rfl
  · refine .inr ⟨rfl, fun h => absurd (h.det (.leaf hk)) (by decide), fun h => ?_⟩
    obtain ⟨y, _, _, he⟩ := h x hx
    exact absurd (he.det (.leaf hk)) (by decide)
  · exact .inl ⟨rfl, x, hx, fun _ _ => Nat.le_refl _, .leaf hk⟩

theorem Up.below {c : Cfg} {p : Ptr} {x x' : Asg} (h : Up c s p x') (hle : ∀ i, i < c.n → x i ≤ x' i) : Up c s p x := by
  obtain ⟨y, hy, hxy, he⟩ := h
  exact ⟨y, hy, fun i hi => (hle i hi).trans (hxy i hi), he⟩

/-- Below `p`: if the closure of a son is everything, then nothing of an earlier son is 1 or its closure is everything too. -/
def TopAt (c : Cfg) (s : Mgr) (p : Ptr) : Prop :=
  ∀ q i ss, Reach s.kind p q → s.kind q = .inner i ss → ∀ (a b : Nat) qa qb, a < b →
    ss[a]? = some qa → ss[b]? = some qb → (∀ x, Valid c x → Up c s qb x) →
    (∀ x, Valid c x → ¬ Up c s qa x) ∨ ∀ x, Valid c x → Up c s qa x

theorem TopAt.son {c : Cfg} {p q : Ptr} {i : Nat} {ss : List Ptr} (h : TopAt c s p) (hk : s.kind p = .inner i ss)
    (hq : q ∈ ss) : TopAt c s q :=
  fun t j ts hr => h t j ts (.step hk hq hr)

/-- If the last son is the terminal 1, so are all of them after the first loop. -/
theorem mnfOnes_top {rs rs1 : List Ptr} (hu : ∀ q ∈ rs, s.used q = true) {r : Ptr} (hl : rs[rs.length - 1]? = some r)
    (hk : s.kind r = .leaf 1) (e : mnfOnes (rs.length - 1) rs s = .ok (rs1, s)) (j : Nat) (q : Ptr)
    (hj : rs1[j]? = some q) : s.kind q = .leaf 1 := by
  cases hn : rs.length - 1 with
  | zero =>
      rw [hn] at e hl
      cases e
      have : j < rs.length := by
        by_contra hc
        rw [List.getElem?_eq_none (by omega)] at hj
        cases hj
      obtain rfl : j = 0 := by omega
      rw [hl] at hj
      cases hj
      exact hk
  | succ k =>
      rw [hn] at e hl
      obtain ⟨b, hb, hbi⟩ := isTerminalOf_ok (hu _ (List.mem_of_getElem? hl)) 1
      simp only [mnfOnes] at e
      rw [bind_ok (sonAt_ok hl), bind_ok hb, hbi.2 hk] at e
      cases e
      by_cases hjk : j < k + 1
      · rw [List.getElem?_append_left (by simpa using hjk), List.getElem?_replicate, if_pos hjk] at hj
        cases hj
        exact hk
      · rw [List.getElem?_append_right (by simp; omega), List.getElem?_drop, List.length_replicate] at hj
        have : k + 1 + (j - (k + 1)) < rs.length := by
          by_contra hc
          rw [List.getElem?_eq_none (by omega)] at hj
          cases hj
        rw [show k + 1 + (j - (k + 1)) = k + 1 by omega, hl] at hj
        cases hj
        exact hk

/-- What a son of the transformed node is. -/
def InnerRes (E : Env) (s0 : Mgr) (q r : Ptr) (s : Mgr) : Prop :=
  Rep E.c s (s0.levelOf E.c q) r (Between E.c (fun x => Ev s0.kind x q 1) (Up E.c s0 q)) ∧
    ∀ v, s.kind r = .leaf v → Reach s0.kind q r

theorem InnerRes.keeps {s0 s' : Mgr} {q r : Ptr} (h : InnerRes E s0 q r s) (k : Keeps ext [] s s') (hp : Prot ext [] s r) :
    InnerRes E s0 q r s' :=
  ⟨h.1.keeps k hp, fun v hv => h.2 v (by rw [← k.kind r hp]; exact hv)⟩

/-- The memo table holds correct results; no terminal of the original diagram `top` is marked. -/
structure InnerMemo (E : Env) (ext : Ptr → Nat) (s0 : Mgr) (top : Ptr) (m : Memo) (s : Mgr) : Prop where
  memo : ∀ p r, m p = some r → Prot ext [] s r ∧ InnerRes E s0 p r s
  marks : ∀ p v, Reach s0.kind top p → s0.kind p = .leaf v → s.mark p = false

/-- A value of the son at position `k` after both loops. -/
def RowVal (c : Cfg) (last : Nat) (F U : Nat → Asg → Prop) (k : Nat) (x : Asg) (v : Int) : Prop :=
  (v = 1 ∧ ∃ k', k ≤ k' ∧ U k' x) ∨ (v = 0 ∧ ¬ F k x ∧ ¬ ∀ y, Valid c y → U last y)

/-- One row: the sons after both loops. -/
theorem row_within (g : Good E ext s) (hcan : E.canon = true) {rs : List Ptr} {L : Nat}
    {F U : Nat → Asg → Prop} (hlen : 0 < rs.length)
    (hp : ∀ q ∈ rs, Prot ext [] s q)
    (hr : ∀ (k : Nat) r, rs[k]? = some r → Rep E.c s L r (Between E.c (F k) (U k)))
    (hch : ∀ a b, a < b → b < rs.length → (∀ x, Valid E.c x → U b x) →
      (∀ x, Valid E.c x → ¬ U a x) ∨ ∀ x, Valid E.c x → U a x) :
    ∃ rs1 rs2, mnfOnes (rs.length - 1) rs s = .ok (rs1, s) ∧
      mnfZeros (rs1.length - 1) rs1 s = .ok (rs2, s) ∧ rs2.length = rs.length ∧
      (∀ q ∈ rs2, q ∈ rs) ∧
      (∀ (k : Nat) r, rs2[k]? = some r → Rep E.c s L r (RowVal E.c (rs.length - 1) F U k)) ∧
      ∀ q ∈ rs, q ∉ rs2 → ∃ v, s.kind q = .leaf v := by
  have hu : ∀ q ∈ rs, s.used q = true := fun q hq => (hp q hq).used g.inv
  obtain ⟨x0, hx0⟩ : ∃ x, Valid E.c x := ⟨fun _ => 0, fun i hi => g.cfg.dom_pos i hi⟩
  -- emptiness and fullness of a row are visible in its node
  have full : ∀ (k : Nat) r, rs[k]? = some r → (∀ x, Valid E.c x → U k x) → s.kind r = .leaf 1 := by
    intro k r hk h
    refine const_leaf g hcan (hu r (List.mem_of_getElem? hk)) fun x hx => ?_
    obtain ⟨v, hv, he⟩ := (hr k r hk).2 x hx
    rcases hv with ⟨rfl, _⟩ | ⟨_, _, hn⟩
    · exact he
    · exact absurd h hn
  have empty : ∀ (k : Nat) r, rs[k]? = some r → (∀ x, Valid E.c x → ¬ U k x) → s.kind r = .leaf 0 := by
    intro k r hk h
    refine const_leaf g hcan (hu r (List.mem_of_getElem? hk)) fun x hx => ?_
    obtain ⟨v, hv, he⟩ := (hr k r hk).2 x hx
    rcases hv with ⟨_, hn⟩ | ⟨rfl, _, _⟩
    · exact absurd hn (h x hx)
    · exact he
  have ofLeaf1 : ∀ (k : Nat) r, rs[k]? = some r → s.kind r = .leaf 1 → ∀ x, Valid E.c x → U k x := by
    intro k r hk hl x hx
    obtain ⟨v, hv, he⟩ := (hr k r hk).2 x hx
    rcases hv with ⟨_, h⟩ | ⟨rfl, _, _⟩
    · exact h
    · exact absurd (he.det (.leaf hl)) (by decide)
  have ofLeaf0 : ∀ (k : Nat) r, rs[k]? = some r → s.kind r = .leaf 0 → ∀ x, Valid E.c x → ¬ F k x := by
    intro k r hk hl x hx
    obtain ⟨v, hv, he⟩ := (hr k r hk).2 x hx
    rcases hv with ⟨rfl, _⟩ | ⟨_, h, _⟩
    · exact absurd (he.det (.leaf hl)) (by decide)
    · exact h
  obtain ⟨rs1, e1, l1, m, hm, hone, h1⟩ := mnfOnes_ok hu (rs.length - 1) (by omega)
  have sub1 : ∀ q ∈ rs1, q ∈ rs := by
    intro q hq
    obtain ⟨j, hj⟩ := List.getElem?_of_mem hq
    rw [h1 j] at hj
    split at hj
    · exact List.mem_of_getElem? hj
    · exact List.mem_of_getElem? hj
  obtain ⟨rs2, e2, l2, h2, h20, h2n⟩ := mnfZeros_ok (rs1.length - 1) rs1 (fun q hq => hu q (sub1 q hq))
    (by omega)
  rw [l1] at h2 h20 h2n
  have some1 : ∀ j, j < rs.length → ∃ r, rs1[j]? = some r := fun j hj =>
    ⟨rs1[j]'(by omega), List.getElem?_eq_getElem (by omega)⟩
  have some2 : ∀ j, j < rs.length → ∃ r, rs2[j]? = some r := fun j hj =>
    ⟨rs2[j]'(by omega), List.getElem?_eq_getElem (by omega)⟩
  have mfull : 0 < m → ∀ x, Valid E.c x → U m x := by
    intro h
    rcases hone with h0 | ⟨r, hr1, hl⟩
    · omega
    · exact ofLeaf1 m r hr1 hl
  have ones : ∀ x, Valid E.c x → (∀ x, Valid E.c x → U (rs.length - 1) x) → ∀ (j : Nat) r, rs1[j]? = some r →
      s.kind r = .leaf 1 := by
    intro x hx hfull j r hj
    have hlast : rs[rs.length - 1]? = some (rs[rs.length - 1]'(by omega)) := List.getElem?_eq_getElem (by omega)
    have hk1 := full _ _ hlast hfull
    exact mnfOnes_top hu hlast hk1 e1 j r hj
  have main : ∀ d j r, j + d = rs.length - 1 → rs2[j]? = some r →
      Rep E.c s L r (fun x v => (v = 1 ∧ ∃ k', j ≤ k' ∧ U k' x) ∨ (v = 0 ∧ ¬ F j x)) ∧ r ∈ rs ∧
        ((∀ x, Valid E.c x → U (rs.length - 1) x) → s.kind r = .leaf 1) := by
    intro d
    induction d with
    | zero =>
        intro j r hj hr2
        have hlast := (h2 j (by omega)).symm.trans hr2
        rw [h2 j (by omega), h1 j, if_neg (by omega)] at hr2
        refine ⟨(hr j r hr2).mono (Nat.le_refl _) ?_, List.mem_of_getElem? hr2, fun hf => ones x0 hx0 hf j r hlast⟩
        rintro x v hx (⟨rfl, hv⟩ | ⟨rfl, hv, _⟩)
        · exact .inl ⟨rfl, j, Nat.le_refl _, hv⟩
        · exact .inr ⟨rfl, hv⟩
    | succ d ih =>
        intro j r hj hr2
        obtain ⟨r1, hr1⟩ := some1 j (by omega)
        obtain ⟨r', hr'⟩ := some2 (j + 1) (by omega)
        by_cases hl : s.kind r1 = .leaf 0
        · have e := h20 j r1 (by omega) hr1 hl
          rw [hr2, hr'] at e
          cases e
          obtain ⟨rep, hmem, hone'⟩ := ih (j + 1) r (by omega) hr'
          refine ⟨rep.mono (Nat.le_refl _) ?_, hmem, hone'⟩
          have hjm : ¬ j < m := by
            intro hjm
            rw [h1 j, if_pos hjm] at hr1
            rcases hone with h0 | ⟨r3, hr3, hl3⟩
            · omega
            · rw [hr1] at hr3
              cases hr3
              rw [hl] at hl3
              cases hl3
          rw [h1 j, if_neg hjm] at hr1
          rintro x v hx (⟨rfl, k', h3, h4⟩ | ⟨rfl, hv⟩)
          · exact .inl ⟨rfl, k', by omega, h4⟩
          · exact .inr ⟨rfl, ofLeaf0 j r1 hr1 hl x hx⟩
        · have e := h2n j r1 (by omega) hr1 hl
          rw [hr2] at e
          cases e
          refine ⟨?_, sub1 r (List.mem_of_getElem? hr1), fun hf => ones x0 hx0 hf j r hr1⟩
          rw [h1 j] at hr1
          by_cases hjm : j < m
          · rw [if_pos hjm] at hr1
            refine (hr m r hr1).mono (Nat.le_refl _) ?_
            rintro x v hx (⟨rfl, hv⟩ | ⟨_, _, hv⟩)
            · exact .inl ⟨rfl, m, by omega, hv⟩
            · exact absurd (mfull (by omega)) hv
          · rw [if_neg hjm] at hr1
            refine (hr j r hr1).mono (Nat.le_refl _) ?_
            rintro x v hx (⟨rfl, hv⟩ | ⟨rfl, hv, _⟩)
            · exact .inl ⟨rfl, j, Nat.le_refl _, hv⟩
            · exact .inr ⟨rfl, hv⟩
  have lt2 : ∀ (j : Nat) r, rs2[j]? = some r → j < rs.length := by
    intro j r h
    by_contra hc
    rw [List.getElem?_eq_none (by omega)] at h
    cases h
  refine ⟨rs1, rs2, e1, e2, by omega, ?_, ?_, ?_⟩
  · intro q hq
    obtain ⟨j, hj⟩ := List.getElem?_of_mem hq
    have := lt2 j q hj
    exact (main (rs.length - 1 - j) j q (by omega) hj).2.1
  · intro k r hk
    have := lt2 k r hk
    obtain ⟨rep, -, hone'⟩ := main (rs.length - 1 - k) k r (by omega) hk
    refine ⟨rep.1, fun x hx => ?_⟩
    obtain ⟨v, hv, he⟩ := rep.2 x hx
    refine ⟨v, ?_, he⟩
    rcases hv with h | ⟨rfl, h⟩
    · exact .inl h
    · exact .inr ⟨rfl, h, fun hf => absurd (he.det (.leaf (hone' hf))) (by decide)⟩
  · intro q hq hnq
    obtain ⟨j, hj⟩ := List.getElem?_of_mem hq
    have hjl : j < rs.length := by
      by_contra hc
      rw [List.getElem?_eq_none (by omega)] at hj
      cases hj
    by_cases hjm : j < m
    · rcases hch j m hjm (by omega) (mfull (by omega)) with h3 | h3
      · exact ⟨0, empty j q hj h3⟩
      · exact ⟨1, full j q hj h3⟩
    · have hq1 : rs1[j]? = some q := by rw [h1 j, if_neg hjm]; exact hj
      by_cases hl : s.kind q = .leaf 0
      · exact ⟨0, hl⟩
      · exfalso
        apply hnq
        by_cases hlast : j < rs.length - 1
        · exact List.mem_of_getElem? (h2n j q hlast hq1 hl)
        · exact List.mem_of_getElem? ((h2 j (by omega)).trans hq1)

theorem toMnfImpl_within {s0 : Mgr} (g0 : Good E ext s0) (hcan : E.canon = true) {top : Ptr} (htp : Prot ext [] s0 top) :
    ∀ (f : Nat) (p : Ptr) (L : Ptr → Prop) (m : Memo) (s : Mgr), Good E ext s → Keeps ext [] s0 s →
      Prot ext [] s0 p → Reach s0.kind top p → (∀ v, LeafVal s0.kind p v → v = 0 ∨ v = 1) → TopAt E.c s0 p →
      InnerMemo E ext s0 top m s → (∀ t, Memo.Stores m t → TidyBelow L t s) → E.c.n - s0.levelOf E.c p < f →
      Ok (toMnfImpl E.c f p m) s (fun r s' => Step E ext s r.1 s' ∧ InnerRes E s0 p r.1 s' ∧
        InnerMemo E ext s0 top r.2 s' ∧
        TidyBelow (fun t => t = r.1 ∨ L t) r.1 s' ∧ ∀ u, Memo.Stores r.2 u → TidyBelow (fun t => t = r.1 ∨ L t) u s') := by
  intro f
  induction f with
  | zero => intro p L m s _ _ _ _ _ _ _ _ hf; omega
  | succ f ih =>
      intro p L m s g k hp htop hv hlay hm hL hf
      have hps := k.prot _ hp
      simp only [toMnfImpl]
      refine Ok.bindEq (getKind_ok (hps.used g.inv)) ?_
      rw [k.kind p hp]
      cases hk : s0.kind p with
      | leaf v =>
          refine Ok.pure ⟨Step.refl g hps, ⟨⟨by rw [k.levelOf hp], fun x hx => ?_⟩, fun _ _ => .refl⟩, hm,
            .leaf (by rw [k.kind p hp]; exact hk), fun u hu => (hL u hu).mono fun _ h => .inr h⟩
          exact ⟨v, between_leaf hk (hv v ⟨p, .refl, hk⟩) hx, (k.ev_iff hp).2 (.leaf hk)⟩
      | inner i ss =>
          obtain ⟨hi, hlen, hus⟩ := g0.inv.sons p i ss (hp.used g0.inv) hk
          dsimp only
          cases hmp : m p with
          | some r =>
              have := hm.memo p r hmp
              exact Ok.pure ⟨Step.refl g this.1, this.2, hm, (hL r ⟨p, hmp⟩).mono fun _ h => .inr h,
                fun u hu => (hL u hu).mono fun _ h => .inr h⟩
          | none =>
              have hpos : 0 < ss.length := by rw [hlen]; exact g0.cfg.dom_pos i hi
              refine Ok.bind (mapAccL_tidy (E := E) (ext := ext) (Q := fun q r s => InnerRes E s0 q r s)
                (T := InnerMemo E ext s0 top) (mem := Memo.Stores) (fun _ _ _ _ k hp h => h.keeps k hp) s0 ss ?_ L m s g k hm
                hL) ?_
              · intro q hq L m s g k hm hL
                have hlt := g0.ord p i ss q (hp.used g0.inv) hk hq
                have hle := levelOf_le g0.inv (hus q hq)
                exact ih q L m s g k (.son hp hk hq) (htop.trans (.step hk hq .refl)) (fun v h => hv v (h.son hk hq))
                  (hlay.son hk hq) hm hL (by omega)
              · rintro ⟨rs, m1⟩ s1 ⟨g1, k1, hl1, hp1, hr1, hm1, hmo1, tb1, mt1⟩
                dsimp only at hl1 hp1 hr1 hm1 hmo1 tb1 mt1 ⊢
                have hlv : s1.idx2lvl i = s0.levelOf E.c p := by
                  rw [k1.i2l, k.i2l]; simp [Mgr.levelOf, hk]
                have getss : ∀ (j : Nat) r, rs[j]? = some r → ∃ q, ss[j]? = some q := by
                  intro j r hj
                  have : j < ss.length := by
                    by_contra hc
                    rw [List.getElem?_eq_none (by omega)] at hj
                    cases hj
                  exact ⟨_, List.getElem?_eq_getElem this⟩
                let U : Nat → Asg → Prop := fun j x => ∃ q, ss[j]? = some q ∧ Up E.c s0 q x
                have hUeq : ∀ j q x, ss[j]? = some q → (U j x ↔ Up E.c s0 q x) := by
                  intro j q x hq
                  constructor
                  · rintro ⟨q', h1, h2⟩
                    rw [hq] at h1
                    cases h1
                    exact h2
                  · exact fun h => ⟨q, hq, h⟩
                let F : Nat → Asg → Prop := fun j x => ∃ q, ss[j]? = some q ∧ Ev s0.kind x q 1
                have hFeq : ∀ j q x, ss[j]? = some q → (F j x ↔ Ev s0.kind x q 1) := by
                  intro j q x hq
                  constructor
                  · rintro ⟨q', h1, h2⟩
                    rw [hq] at h1
                    cases h1
                    exact h2
                  · exact fun h => ⟨q, hq, h⟩
                have hrep : ∀ (j : Nat) r, rs[j]? = some r →
                    Rep E.c s1 (s1.idx2lvl i + 1) r (Between E.c (F j) (U j)) := by
                  intro j r hj
                  obtain ⟨q, hq⟩ := getss j r hj
                  have hlt := g0.ord p i ss q (hp.used g0.inv) hk (List.mem_of_getElem? hq)
                  refine (hr1 j q r hq hj).1.mono (by rw [hlv]; omega) ?_
                  intro x v _ h
                  exact h.congr (fun x => hFeq j q x hq) (fun x => hUeq j q x hq)
                obtain ⟨rs1, rs2, e1, e2, l2, sub2, rep2, drop2⟩ := row_within (F := F) (U := U) g1 hcan
                  (by omega) hp1 hrep (by
                    intro a b hab hb
                    have ha' : ss[a]? = some (ss[a]'(by omega)) := List.getElem?_eq_getElem (by omega)
                    have hb' : ss[b]? = some (ss[b]'(by omega)) := List.getElem?_eq_getElem (by omega)
                    intro hfull
                    rcases hlay p i ss .refl hk a b _ _ hab ha' hb' (fun x hx => (hUeq b _ x hb').1 (hfull x hx)) with h | h
                    · exact Or.inl fun x hx => by rw [hUeq a _ x ha']; exact h x hx
                    · exact Or.inr fun x hx => by rw [hUeq a _ x ha']; exact h x hx)
                refine Ok.bindEq e1 ?_
                refine Ok.bindEq e2 ?_
                refine Ok.bind (makeInternal_good (φ := fun j => RowVal E.c (rs.length - 1) F U j)
                  g1 hi (by omega) (fun q hq => hp1 q (sub2 q hq)) rep2) ?_
                rintro r s2 ⟨g2, k2, hp2, hm2, rr, hres⟩
                rw [hlv] at rr
                have res : InnerRes E s0 p r s2 := by
                  refine ⟨rr.mono (Nat.le_refl _) ?_, ?_⟩
                  · intro x v hx h
                    rcases h with ⟨rfl, k', h1, q, h2, h3⟩ | ⟨rfl, h1, h2⟩
                    · exact .inl ⟨rfl, (up_inner g0.inv g0.ord (hp.used g0.inv) hk).2 ⟨k', q, h1, h2, h3⟩⟩
                    · refine .inr ⟨rfl, fun he => h1 ?_, fun hfull => h2 fun y hy => ?_⟩
                      · cases he with
                        | leaf hk' => rw [hk] at hk'; cases hk'
                        | inner hk' hq he =>
                            rw [hk] at hk'
                            cases hk'
                            exact ⟨_, hq, he⟩
                      · have hd : 0 < E.c.dom i := g0.cfg.dom_pos i hi
                        obtain ⟨k', q, h3, h4, h5⟩ := (up_inner g0.inv g0.ord (hp.used g0.inv) hk).1
                          (hfull (upd y i (E.c.dom i - 1)) (valid_upd hy fun _ => by omega))
                        rw [upd_same] at h3
                        have hkl : k' < ss.length := by
                          by_contra hc
                          rw [List.getElem?_eq_none (by omega)] at h4
                          cases h4
                        obtain rfl : k' = rs.length - 1 := by omega
                        refine ⟨q, h4, h5.below fun j hj => ?_⟩
                        by_cases e : j = i
                        · subst e
                          have := hy j hj
                          rw [upd_same]
                          omega
                        · rw [upd_other _ _ e]
                  · intro v hkr
                    rcases hres with ⟨_, rfl, hrs, _⟩ | ⟨_, hk', _⟩
                    · obtain ⟨j, hj⟩ := List.getElem?_of_mem (sub2 r hrs)
                      obtain ⟨q, hq⟩ := getss j r hj
                      exact .step hk (List.mem_of_getElem? hq) ((hr1 j q r hq hj).2 v (by
                        rw [← k2.kind r (hp1 r (List.mem_of_getElem? hj))]; exact hkr))
                    · rw [hk'] at hkr
                      cases hkr
                have origin : ∀ q ∈ rs, ∀ v, s1.kind q = .leaf v → s1.mark q = false := by
                  intro q hq v hkq
                  obtain ⟨j, hj⟩ := List.getElem?_of_mem hq
                  obtain ⟨t, ht⟩ := getss j q hj
                  have hr0 : Reach s0.kind p q := .step hk (List.mem_of_getElem? ht) ((hr1 j t q ht hj).2 v hkq)
                  refine hmo1.marks q v (htop.trans hr0) ?_
                  rw [← (k.trans k1).kind q (hr0.prot hp)]
                  exact hkq
                have fewer : ∀ t, TidyBelow (fun u => u ∈ rs ∨ L u) t s1 → TidyBelow (fun u => u ∈ rs2 ∨ L u) t s1 := by
                  intro t ht u h1 h2
                  rcases ht u h1 h2 with h3 | h3
                  · by_cases h4 : u ∈ rs2
                    · exact .inl h4
                    · obtain ⟨v, hku⟩ := drop2 u h3 h4
                      rw [origin u h3 v hku] at h2
                      cases h2
                  · exact .inr h3
                have below := TidyBelow.new k2 hm2 (fun q hq => hp1 q (sub2 q hq))
                  (fun q hq => fewer q (tb1 q (sub2 q hq))) hres
                refine Ok.pure ⟨⟨g2, k1.trans k2, hp2, ?_⟩, res, ⟨?_, ?_⟩, below, ?_⟩
                · intro t ht
                  rcases hm2 t ht with h1 | ⟨h1, h2⟩
                  · exact Or.inl h1
                  · rcases hm1 t h1 with h3 | h3
                    · obtain ⟨v, hkt⟩ := drop2 t h3 h2
                      rw [origin t h3 v hkt] at h1
                      cases h1
                    · exact Or.inr h3
                · intro q r' hq
                  simp only [upd_apply] at hq
                  split at hq
                  · rename_i e
                    subst e
                    cases hq
                    exact ⟨hp2, res⟩
                  · have := hmo1.memo q r' hq
                    exact ⟨k2.prot _ this.1, this.2.keeps k2 this.1⟩
                · intro q v hq hkq
                  have hq1 := hmo1.marks q v hq hkq
                  have hqp : Prot ext [] s0 q := hq.prot htp
                  cases hmq : s2.mark q with
                  | false => rfl
                  | true =>
                      rcases hm2 q hmq with rfl | ⟨h1, _⟩
                      · rcases hres with ⟨_, rfl, _, _⟩ | ⟨_, hk', _⟩
                        · rw [hq1] at hmq; cases hmq
                        · rw [((k.trans k1).trans k2).kind q hqp, hkq] at hk'
                          cases hk'
                      · rw [hq1] at h1; cases h1
                · rintro u ⟨q, hq⟩
                  simp only [upd_apply] at hq
                  split at hq
                  · cases hq
                    exact below
                  · exact (fewer u (mt1 u ⟨q, hq⟩)).made k2 hm2 (hmo1.memo q u hq).1

/-- After fixing the first variables of the order (to the values of `y`), take two values `a < b` of the next variable `i`.  If
every vector lies below one that makes `f` equal to 1 when `i` has value `b`, then `f` is never 1 when `i` has value `a`, or
every vector lies below one that makes it 1. -/
def Topped (n : Nat) (dom : Nat → Nat) (order : List Nat) (f : Asg → Int) : Prop :=
  ∀ l i y a b, order[l]? = some i → InDomain n dom y → a < b → b < dom i →
    (∀ z, InDomain n dom z → ∃ z', InDomain n dom z' ∧ (∀ j, j < n → z j ≤ z' j) ∧
      f (fixFirst order l y (upd z' i b)) = 1) →
    (∀ z, InDomain n dom z → f (fixFirst order l y (upd z i a)) ≠ 1) ∨
    ∀ z, InDomain n dom z → ∃ z', InDomain n dom z' ∧ (∀ j, j < n → z j ≤ z' j) ∧
      f (fixFirst order l y (upd z' i a)) = 1

theorem topAt {c : Cfg} (h : Inv c ext [] s) (ho : Ordered c s) (hc : CfgOK c) {r : Ptr}
    {f : Asg → Int} (hu : s.used r = true) (hd : Den c s r f)
    (hf : Topped c.n c.dom (levelVars c s) f) : TopAt c s r := by
  intro q i ss hr hk a b qa qb hab hqa hqb hfull
  have huq := hr.used h hu
  obtain ⟨hi, hlen, hus⟩ := h.sons q i ss huq hk
  obtain ⟨y, hy, hz⟩ := path_to h ho hc hr hu
  have hlq : s.levelOf c q = s.idx2lvl i := by simp [Mgr.levelOf, hk]
  have hord : (levelVars c s)[s.idx2lvl i]? = some i := by
    unfold levelVars
    rw [List.getElem?_map, List.getElem?_range (h.order.i2l_lt i hi)]
    simp [h.order.i2l2i i hi]
  have key : ∀ k t z, ss[k]? = some t → Valid c z →
      (f (fixFirst (levelVars c s) (s.idx2lvl i) y (upd z i k)) = 1 ↔ Ev s.kind z t 1) := by
    intro k t z ht hzv
    have hkl : k < c.dom i := by
      rw [← hlen]
      by_contra hcon
      rw [List.getElem?_eq_none (by omega)] at ht
      cases ht
    have hlt := ho q i ss t huq hk (List.mem_of_getElem? ht)
    have hw := fixFirst_valid (order := levelVars c s) (l := s.idx2lvl i) hy
      (valid_upd hzv (i := i) (k := k) fun _ => hkl)
    generalize hwe : fixFirst (levelVars c s) (s.idx2lvl i) y (upd z i k) = w at hw ⊢
    have hwi : w i = k := by
      rw [← hwe]
      unfold fixFirst
      rw [if_neg (by rw [mem_take_levelVars h]; omega), upd_same]
    have hwy : ∀ j, j < c.n → s.idx2lvl j < s.idx2lvl i → w j = y j := by
      intro j hj hl
      rw [← hwe]
      unfold fixFirst
      rw [if_pos (by rw [mem_take_levelVars h]; exact ⟨hj, hl⟩)]
    have hwz : ∀ j, s.levelOf c t ≤ s.idx2lvl j → w j = z j := by
      intro j hl
      have hne : j ≠ i := by rintro rfl; omega
      rw [← hwe]
      unfold fixFirst
      rw [if_neg (by rw [mem_take_levelVars h]; omega), upd_other _ _ hne]
    have hq : ∀ v, Ev s.kind w q v ↔ Ev s.kind w r v := fun v =>
      hz w v fun j hj _ hl => hwy j hj (by omega)
    constructor
    · intro e
      have h1 : Ev s.kind w q 1 := (hq 1).2 (e ▸ hd w hw)
      cases h1 with
      | leaf hk' => rw [hk] at hk'; cases hk'
      | inner hk' hq' he =>
          rw [hk] at hk'
          cases hk'
          rw [hwi, ht] at hq'
          cases hq'
          exact he.agree h ho (hus t (List.mem_of_getElem? ht)) hwz
    · intro he
      have h1 : Ev s.kind w t 1 := he.agree h ho (hus t (List.mem_of_getElem? ht))
        fun j hj => (hwz j hj).symm
      have h2 : Ev s.kind w q 1 := .inner hk (by rw [hwi]; exact ht) h1
      exact (hd w hw).det ((hq 1).1 h2)
  have hbl : b < c.dom i := by
    rw [← hlen]
    by_contra hcon
    rw [List.getElem?_eq_none (by omega)] at hqb
    cases hqb
  rcases hf (s.idx2lvl i) i y a b hord hy hab hbl (fun z hz => by
    obtain ⟨z', hz', hle, he⟩ := hfull z hz
    exact ⟨z', hz', hle, (key b qb z' hqb hz').2 he⟩) with h1 | h1
  · left
    rintro x hx ⟨z, hzv, _, he⟩
    exact h1 z hzv ((key a qa z hqa hzv).2 he)
  · right
    intro x hx
    obtain ⟨z', hz', hle, e⟩ := h1 x hx
    exact ⟨z', hz', hle, (key a qa z' hqa hz').1 e⟩

theorem toMnf_within (hau : E.auto = false) (g : Good E ext s) (hcan : E.canon = true) {p : Ptr} (hcl : CleanBelow s p)
    (hp : Prot ext [] s p) {f : Asg → Int} (hd : Den E.c s p f)
    (h01 : ∀ x, Valid E.c x → f x = 0 ∨ f x = 1) (hf : Topped E.c.n E.c.dom (levelVars E.c s) f) :
    Ok (toMnf E.c p) s (fun r s' => ∃ g, NewDiagram E ext s g r s' ∧ CleanBelow s' r ∧
      ∀ x, Valid E.c x → (g x = 1 ∧ Covered E.c.n E.c.dom f x) ∨ (g x = 0 ∧ f x ≠ 1)) := by
  classical
  have hu := hp.used g.inv
  unfold toMnf
  refine Ok.bind (toMnfImpl_within g hcan hp (E.c.n + 1) p (fun _ => False) _ s g (Keeps.refl s) hp .refl ?_
    (topAt g.inv g.ord g.cfg hu hd hf) ⟨fun _ _ h => (by cases h), fun q _ hq _ => hcl q hq⟩
    (by rintro _ ⟨_, h⟩; cases h) (by omega)) ?_
  · intro v hv
    obtain ⟨x, hx, e⟩ := (leafVal_iff g hu hd).1 hv
    exact e ▸ h01 x hx
  rintro ⟨r, m⟩ s1 ⟨st, ⟨rep, _⟩, _, tb, _⟩
  refine Ok.bindEq (runDeferred_ok (st.good.defer hau) _) ?_
  obtain ⟨r', s', e', rfl, _, hm, hk⟩ := mkDiagram_good st.good st.prot
  have val : ∀ x, Valid E.c x → ((if Ev s1.kind x r' 1 then (1 : Int) else 0) = 1 ∧ Ev s1.kind x r' 1 ∧ Covered E.c.n E.c.dom f x) ∨
      ((if Ev s1.kind x r' 1 then (1 : Int) else 0) = 0 ∧ Ev s1.kind x r' 0 ∧ f x ≠ 1) := by
    intro x hx
    obtain ⟨v, hv, he⟩ := rep.2 x hx
    rcases hv with ⟨rfl, h1⟩ | ⟨rfl, h1, _⟩
    · exact .inl ⟨if_pos he, he, (covered_iff g.inv hu hd x).1 h1⟩
    · exact .inr ⟨if_neg fun h => absurd (h.det he) (by decide), he, fun h => h1 (h ▸ hd x hx)⟩
  have hs : Ok (mkDiagram r') s1 (fun r s' => NewDiagram E ext s (fun x => if Ev s1.kind x r' 1 then (1 : Int) else 0) r s') := by
    refine st.diagram (L := s.levelOf E.c p) ⟨rep.1, fun x hx => ⟨_, rfl, ?_⟩⟩
    rcases val x hx with ⟨h1, h2, _⟩ | ⟨h1, h2, _⟩
    · dsimp only
      rw [h1]; exact h2
    · dsimp only
      rw [h1]; exact h2
  obtain ⟨r2, s2, e2, nd⟩ := hs
  rw [e'] at e2
  cases e2
  refine ⟨r', s', e', _, nd, ?_, fun x hx => (val x hx).imp (fun h => ⟨h.1, h.2.2⟩) fun h => ⟨h.1, h.2.2⟩⟩
  intro t ht
  rw [hk] at ht
  rw [hm, upd_apply]
  split
  · rfl
  · rename_i hne
    cases hmt : s1.mark t with
    | false => rfl
    | true => exact ((tb t ht hmt).elim hne id).elim

theorem fussellVesely_within (hau : E.auto = false) (g : Good E ext s) (hcan : E.canon = true) {p : Ptr}
    (hcl : CleanBelow s p) (hp : Prot ext [] s p) {f : Asg → Int} (hd : Den E.c s p f)
    (h01 : ∀ x, Valid E.c x → f x = 0 ∨ f x = 1) (hf : Topped E.c.n E.c.dom (levelVars E.c s) f)
    {P : Nat → Nat → Rat} (hP : SumsToOne E.c.n E.c.dom P) {u : Rat} {st i : Nat} :
    Ok (fussellVesely E.c P u st i p) s (fun r s' => Good E ext s' ∧ KeepsH ext s s' ∧
      (∀ q, s'.mark q = true → s.mark q = true) ∧
      ∃ g : Asg → Int, (∀ x, Valid E.c x → (g x = 1 ∧ Covered E.c.n E.c.dom f x) ∨ (g x = 0 ∧ f x ≠ 1)) ∧
        r = ((List.range st).map (P i)).sum * probability E.c.n E.c.dom P (fun x => decide (g x = 1)) / u) := by
  unfold fussellVesely
  refine Ok.bind (toMnf_within hau g hcan hcl hp hd h01 hf) ?_
  rintro m s1 ⟨g, nd, hcl1, hg⟩
  have hpos : 0 < addExt ext m m := by simp [addExt, upd_same]
  refine Ok.bind (ntpsPost_ok (selected := [1]) nd.handle.good (nd.handle.good.inv.extUsed m hpos) hcl1 nd.den
    hP ?_ (by simp)) ?_
  · intro x hx h
    rcases hg x hx with ⟨h1, _⟩ | ⟨h1, _⟩ <;> rw [h1] at h <;> simp [Undefined] at h
  rintro q s2 ⟨rfl, D⟩
  have g2 := D.good nd.handle.good
  refine Ok.bind (dropHandle_good g2 hpos) ?_
  rintro _ s3 ⟨g3, hm3, hk3, hi3, hl3, _⟩
  refine Ok.pure ⟨g3.ext_eq ?_, ?_, ?_, ?_⟩
  · intro q
    simp only [subExt, addExt, upd_apply]
    by_cases e : q = m
    · subst e; simp
    · simp [e]
  · exact (nd.handle.keeps.toH.trans (KeepsH.of_kind D.kind D.i2l D.l2i)).trans
      (KeepsH.of_kind hk3 hi3 hl3)
  · intro q hq
    rw [hm3, D.mark] at hq
    exact nd.mark q hq
  · refine ⟨g, hg, ?_⟩
    congr 3
    funext x
    by_cases h : g x = 1 <;> simp [h]

end

/-- `fussell_vesely_importance` of a diagram without marks that need not be layered. -/
theorem fussellVesely_between {P : Setup} {σ : SState} {w : World} (R : Rel P σ w) (hauto : σ.auto = false)
    (hcan : σ.canon = true) {a : Nat} {f : Asg → Int} (hf : σ.Has a f) (hu : Unmarked w a)
    (h01 : ∀ x, InDomain P.c.n P.c.dom x → f x = 0 ∨ f x = 1) (hl : Topped P.c.n P.c.dom σ.order f) {pr : Nat → Nat → Rat}
    (hs : SumsToOne P.c.n P.c.dom pr) (u : Rat) (st i : Nat) :
    Ok (exec P.c (.fussellVesely pr u st i a)) w (fun o w' =>
      (∃ g : Asg → Int,
        (∀ x, InDomain P.c.n P.c.dom x → (g x = 1 ∧ Covered P.c.n P.c.dom f x) ∨ (g x = 0 ∧ f x ≠ 1)) ∧
        o = .rat (((List.range st).map (pr i)).sum * probability P.c.n P.c.dom pr (fun x => decide (g x = 1)) / u)) ∧
      Rel P σ w' ∧ ∀ b, Unmarked w b → Unmarked w' b) := by
  obtain ⟨p, hp, hd⟩ := R.has a f hf
  obtain ⟨p', hp', hc⟩ := hu
  rw [hp] at hp'
  cases hp'
  simp only [exec]
  refine Ok.bindEq (rootOf_ok hp) ?_
  obtain ⟨r, s', e, g', k', m', g, hg, rfl⟩ := fussellVesely_within (E := envOf P σ) (u := u) (st := st)
    (i := i) hauto R.good hcan hc (handle_prot (extL_pos hp)) hd h01
    (by rw [show levelVars (envOf P σ).c w.mgr = σ.order from R.order]; exact hl) hs
  refine Ok.bindEq (s' := { w with mgr := s' })
    (by simp only [onMgr]; rw [show Teddy.fussellVesely P.c pr u st i p w.mgr = _ from e]) ?_
  refine Ok.pure ⟨⟨g, hg, rfl⟩, R.keeps g' k' m', ?_⟩
  rintro b ⟨q, h1, h2⟩
  exact ⟨q, h1, h2.keepsH k' m' (extL_pos h1)⟩

theorem topped_congr {n : Nat} {dom : Nat → Nat} {order : List Nat} {f g : Asg → Int} (h : SameOn n dom f g)
    (hg : Topped n dom order g) : Topped n dom order f := by
  intro l i y a b ho hy hab hb hfull
  have fixed : ∀ z k, InDomain n dom z → k < dom i → InDomain n dom (fixFirst order l y (upd z i k)) := by
    intro z k hz hk j hj
    unfold fixFirst
    split
    · exact hy j hj
    · exact inDomain_upd hz hk j hj
  rcases hg l i y a b ho hy hab hb (fun z hz => by
    obtain ⟨z', hz', hle, e⟩ := hfull z hz
    exact ⟨z', hz', hle, by rw [← h _ (fixed z' b hz' hb)]; exact e⟩) with h1 | h1
  · exact .inl fun z hz e => h1 z hz (by rw [← h _ (fixed z a hz (by omega))]; exact e)
  · refine .inr fun z hz => ?_
    obtain ⟨z', hz', hle, e⟩ := h1 z hz
    exact ⟨z', hz', hle, by rw [h _ (fixed z' a hz' (by omega))]; exact e⟩

/-- The derivatives of a coherent system meet the condition, for every order. -/
theorem topped_drop3 {n : Nat} {dom : Nat → Nat} {f : Asg → Int} (hm : Monotone n dom f) {s : Int} {i v : Nat}
    (hv : v + 1 < dom i) (order : List Nat) : Topped n dom order (drop3 f s i (v + 1) v) := by
  intro l j y a b ho hy hab hb hfull
  have one : ∀ z, drop3 f s i (v + 1) v z = 1 ↔ s ≤ f (upd z i (v + 1)) ∧ f (upd z i v) < s := by
    intro z
    unfold drop3
    split
    · rename_i h; exact ⟨fun _ => h, fun _ => rfl⟩
    · rename_i h; exact ⟨fun e => by simp at e, fun e => absurd e h⟩
  have fixed : ∀ z k u, InDomain n dom z → k < dom j → u < dom i →
      InDomain n dom (upd (fixFirst order l y (upd z j k)) i u) := by
    intro z k u hz hk hu
    refine inDomain_upd (fun t ht => ?_) hu
    unfold fixFirst
    split
    · exact hy t ht
    · exact inDomain_upd hz hk t ht
  by_cases hne : ∀ z, InDomain n dom z → drop3 f s i (v + 1) v (fixFirst order l y (upd z j a)) ≠ 1
  · exact .inl hne
  · right
    push Not at hne
    obtain ⟨z0, hz0, e0⟩ := hne
    intro z hz
    obtain ⟨z', hz', hle, e⟩ := hfull (fun t => max (z t) (z0 t)) fun t ht => max_lt (hz t ht) (hz0 t ht)
    refine ⟨z', hz', fun t ht => (le_max_left _ _).trans (hle t ht), ?_⟩
    rw [one] at e e0 ⊢
    refine ⟨e0.1.trans (hm _ _ (fixed _ _ _ hz0 (by omega) hv) (fixed _ _ _ hz' (by omega) hv) fun t ht => ?_),
      lt_of_le_of_lt (hm _ _ (fixed _ _ _ hz' (by omega) (by omega)) (fixed _ _ _ hz' hb (by omega)) fun t ht => ?_) e.2⟩
    · have := (le_max_right (z t) (z0 t)).trans (hle t ht)
      simp only [upd_apply, fixFirst]
      split
      · exact Nat.le_refl _
      · split
        · exact Nat.le_refl _
        · split
          · exact Nat.le_refl _
          · exact this
    · simp only [upd_apply, fixFirst]
      split
      · exact Nat.le_refl _
      · split
        · exact Nat.le_refl _
        · split
          · omega
          · exact Nat.le_refl _

/-- A larger event is at least as likely. -/
theorem probability_mono {n : Nat} {dom : Nat → Nat} {pr : Nat → Nat → Rat} {φ ψ : Asg → Bool}
    (h0 : ∀ i, i < n → ∀ k, k < dom i → 0 ≤ pr i k) (h : ∀ x, InDomain n dom x → φ x = true → ψ x = true) :
    probability n dom pr φ ≤ probability n dom pr ψ := by
  have hw : ∀ y ∈ allAsg n dom, 0 ≤ weight pr (List.range n) y := fun y hy =>
    weight_nonneg fun i hi => h0 i (List.mem_range.1 hi) _ (mem_allAsg hy i (List.mem_range.1 hi))
  have hin : ∀ y ∈ allAsg n dom, InDomain n dom y := fun y hy i hi => mem_allAsg hy i hi
  unfold probability
  generalize allAsg n dom = xs at hw hin
  induction xs with
  | nil => exact le_refl _
  | cons x xs ih =>
      have ih := ih (fun y hy => hw y (by simp [hy])) fun y hy => hin y (by simp [hy])
      have hx := hw x (by simp)
      have hφ := h x (hin x (by simp))
      cases e1 : φ x <;> cases e2 : ψ x
      · rw [List.filter_cons_of_neg (by simp [e1]), List.filter_cons_of_neg (by simp [e2])]
        exact ih
      · rw [List.filter_cons_of_neg (by simp [e1]), List.filter_cons_of_pos e2, List.map_cons, List.sum_cons]
        exact ih.trans (le_add_of_nonneg_left hx)
      · rw [hφ e1] at e2
        cases e2
      · rw [List.filter_cons_of_pos e1, List.filter_cons_of_pos e2, List.map_cons, List.sum_cons, List.map_cons,
          List.sum_cons]
        exact add_le_add_right ih _

end Teddy

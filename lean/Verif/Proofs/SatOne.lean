import Verif.Proofs.Queries
import Verif.Proofs.Handle

/-! The assignment `satisfy_one` finds in a reduced diagram depends on the function and the order only. -/

namespace Teddy

open SM Spec

variable {c : Cfg} {S : Mgr} {ext : Ptr → Nat}

theorem Den.son (h : Inv c ext [] S) (ho : Ordered c S) {p : Ptr} (hp : S.used p = true) {f : Asg → Int} {i : Nat}
    {ss : List Ptr} (hd : Den c S p f) (hk : S.kind p = .inner i ss) {k : Nat} {q : Ptr} (hq : ss[k]? = some q)
    (hkd : k < c.dom i) : Den c S q (fun x => f (upd x i k)) := by
  intro x hx
  obtain ⟨-, -, hus⟩ := h.sons p i ss hp hk
  have hmem := List.mem_of_getElem? hq
  have hlq := ho p i ss q hp hk hmem
  have hv := hd (upd x i k) (valid_upd hx (fun _ => hkd))
  dsimp only
  generalize f (upd x i k) = u at hv
  cases hv with
  | leaf hk' => rw [hk] at hk'; cases hk'
  | inner hk' hq' hv =>
      rw [hk] at hk'; cases hk'
      rw [upd_same, hq] at hq'; cases hq'
      refine hv.agree h ho (hus _ hmem) ?_
      intro j hj
      have hne : j ≠ i := by
        rintro rfl
        have : S.levelOf c p = S.idx2lvl j := by simp [Mgr.levelOf, hk]
        omega
      rw [upd_other _ _ hne]

theorem satOneImpl_search (h : Inv c ext [] S) (ho : Ordered c S) (hc : CfgOK c) (hcan : Canon S) {value : Int} :
    ∀ (d l fuel : Nat) (p : Ptr) (f : Asg → Int) (x : Asg), c.n - l = d → l ≤ S.levelOf c p → S.used p = true →
      Den c S p f → Valid c x → c.n - S.levelOf c p < fuel →
      satOneImpl value fuel p x S = .ok (search c.n c.dom value (varsFrom c S l) f x, S) ∧
        Valid c (search c.n c.dom value (varsFrom c S l) f x).2 := by
  intro d
  induction d with
  | zero =>
      intro l fuel p f x hl hlp hp hd hx hfu
      have hle := levelOf_le h hp
      have hln : l = c.n := by omega
      obtain ⟨fuel, rfl⟩ : ∃ k, fuel = k + 1 := ⟨fuel - 1, by omega⟩
      subst hln
      rw [varsFrom_end]
      cases hk : S.kind p with
      | leaf v =>
          have e : f x = v := (hd x hx).det (.leaf hk)
          simp only [satOneImpl]
          rw [bind_ok (getKind_ok hp), hk]
          simp only [search, e]
          exact ⟨rfl, hx⟩
      | inner i ss =>
          have := (h.sons p i ss hp hk).1
          have := h.order.i2l_lt i this
          simp only [Mgr.levelOf, hk] at hlp
          omega
  | succ d ih =>
      intro l fuel p f x hl hlp hp hd hx hfu
      have hln : l < c.n := by omega
      have hi : S.lvl2idx l < c.n := h.order.l2i_lt l hln
      have hil : S.idx2lvl (S.lvl2idx l) = l := h.order.l2i2l l hln
      rw [varsFrom_cons hln]
      by_cases hlt : l < S.levelOf c p
      · have hnd : ¬ DependsOn c.n c.dom f (S.lvl2idx l) := by
          intro hdep
          obtain ⟨q, ss, hr, hk⟩ := depends_tested hd hdep
          have h1 := hr.level_le h ho hp
          have h2 : S.levelOf c q = S.idx2lvl (S.lvl2idx l) := by simp [Mgr.levelOf, hk]
          omega
        simp only [search, if_neg hnd]
        exact ih (l + 1) fuel p f x (by omega) hlt hp hd hx hfu
      · have hlp : S.levelOf c p = l := by omega
        obtain ⟨fuel, rfl⟩ : ∃ k, fuel = k + 1 := ⟨fuel - 1, by omega⟩
        cases hk : S.kind p with
        | leaf v => simp only [Mgr.levelOf, hk] at hlp; omega
        | inner i ss =>
            obtain ⟨hin, hlen, hus⟩ := h.sons p i ss hp hk
            have hie : S.lvl2idx l = i := by
              have : S.idx2lvl i = l := by simpa [Mgr.levelOf, hk] using hlp
              rw [← this, h.order.i2l2i i hin]
            rw [hie]
            have hdep : DependsOn c.n c.dom f i := (tested_iff h ho hc hcan hp hd hin).1 ⟨p, ss, .refl, hk⟩
            simp only [search, if_pos hdep]
            simp only [satOneImpl]
            rw [bind_ok (getKind_ok hp), hk]
            dsimp only
            have loop : ∀ (qs : List Ptr) (k : Nat) (x : Asg), ss.drop k = qs → Valid c x →
                firstSon (satOneImpl value fuel) i k qs x S =
                  .ok (tryValues (fun k => search c.n c.dom value (varsFrom c S (l + 1)) (fun y => f (upd y i k))) i
                    (List.range' k qs.length) x, S) ∧
                Valid c (tryValues (fun k => search c.n c.dom value (varsFrom c S (l + 1)) (fun y => f (upd y i k))) i
                    (List.range' k qs.length) x).2 := by
              intro qs
              induction qs with
              | nil => intro k x _ hx; exact ⟨rfl, hx⟩
              | cons q qs ihq =>
                  intro k x hdrop hx
                  have hkl : k < ss.length := by
                    by_contra hcon
                    rw [List.drop_eq_nil_iff.2 (by omega)] at hdrop; cases hdrop
                  rw [List.drop_eq_getElem_cons hkl] at hdrop
                  obtain ⟨hqe, hrest⟩ := List.cons.inj hdrop
                  have hget : ss[k]? = some q := by rw [List.getElem?_eq_getElem hkl, hqe]
                  have hmem := List.mem_of_getElem? hget
                  have hlq := ho p i ss q hp hk hmem
                  have hle := levelOf_le h (hus q hmem)
                  obtain ⟨h1, h2⟩ := ih (l + 1) fuel q (fun y => f (upd y i k)) (upd x i k) (by omega) (by omega)
                    (hus q hmem) (hd.son h ho hp hk hget (by omega)) (valid_upd hx (fun _ => by omega)) (by omega)
                  simp only [firstSon, List.length_cons, List.range'_succ, tryValues]
                  rw [bind_ok h1]
                  generalize search c.n c.dom value (varsFrom c S (l + 1)) (fun y => f (upd y i k)) (upd x i k) = r at h2
                  obtain ⟨b, y⟩ := r
                  cases b with
                  | true => exact ⟨rfl, h2⟩
                  | false => exact ihq (k + 1) y hrest h2
            have := loop ss 0 x (by simp) hx
            rw [← List.range_eq_range', hlen] at this
            exact this

theorem satisfyOne_search (h : Inv c ext [] S) (ho : Ordered c S) (hc : CfgOK c) (hcan : Canon S) {root : Ptr}
    (hp : S.used root = true) {f : Asg → Int} (hd : Den c S root f) {v : Int}
    (hv : ∀ m, c.fixedDom = some m → c.asserts = true → v < m) :
    satisfyOne c v root S = .ok (searchOne c.n c.dom (levelVars c S) v f, S) := by
  obtain ⟨h1, -⟩ := satOneImpl_search h ho hc hcan (value := v) c.n 0 (c.n + 1) root f (fun _ => 0) rfl
    (Nat.zero_le _) hp hd (fun i hi => hc.dom_pos i hi) (by omega)
  unfold satisfyOne
  rw [bind_ok (assertValue_ok hv), bind_ok h1, varsFrom_zero]
  rfl

end Teddy

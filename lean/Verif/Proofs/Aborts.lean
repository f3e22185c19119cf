import Verif.Proofs.Sim

/-!
# Computations that end in an error

`to_dpld_e` on a manager with a fixed domain and assertions.
-/

namespace Teddy

open SM Spec

/-- From `s` the computation ends in the error `e`. -/
def Aborts {σ α : Type} (m : SM σ α) (s : σ) (e : Err) : Prop := m s = .error e

section
variable {σ α β τ : Type} {s s' : σ} {e : Err}

theorem Aborts.bind {m : SM σ α} {f : α → SM σ β} (h : Aborts m s e) : Aborts (m >>= f) s e := by
  show (m >>= f) s = _
  rw [bind_run, show m s = _ from h]

theorem Aborts.after {m : SM σ α} {f : α → SM σ β} {Q : α → σ → Prop} (h : Ok m s Q)
    (hf : ∀ a s', Q a s' → Aborts (f a) s' e) : Aborts (m >>= f) s e := by
  obtain ⟨a, s', h1, h2⟩ := h
  show (m >>= f) s = _
  rw [bind_ok h1]
  exact hf a s' h2

theorem Aborts.afterEq {m : SM σ α} {f : α → SM σ β} {a : α} (h : m s = .ok (a, s'))
    (hf : Aborts (f a) s' e) : Aborts (m >>= f) s e := by
  show (m >>= f) s = _
  rw [bind_ok h]
  exact hf

theorem Aborts.mapL {f : α → SM σ β} {a : α} {l : List α} (h : Aborts (f a) s e) : Aborts (mapL f (a :: l)) s e :=
  Aborts.bind h

theorem Aborts.mapAccL {f : α → τ → SM σ (β × τ)} {a : α} {l : List α} {t : τ} (h : Aborts (f a t) s e) :
    Aborts (mapAccL f (a :: l) t) s e :=
  Aborts.bind h

end

section
variable {E : Env} {ext : Ptr → Nat} {s : Mgr}

/-- Assertions are checked and all domains have `m` values: `Undefined` is too large. -/
structure Refuses (c : Cfg) (m : Nat) : Prop where
  fixed : c.fixedDom = some m
  asserts : c.asserts = true
  two : 2 ≤ m
  small : (m : Int) ≤ Undefined

theorem Refuses.terminal {c : Cfg} {m : Nat} (h : Refuses c m) (s : Mgr) :
    Aborts (makeTerminal c Undefined) s .assertion := by
  unfold makeTerminal
  refine Aborts.bind ?_
  have := h.small
  have h2 : ¬ (Undefined < (m : Int)) := by omega
  simp only [Aborts, assertTerminal, h.fixed, h.asserts, h2, decide_false, Bool.not_false, Bool.and_self, if_true]
  rfl

theorem Refuses.undefinedExcept {c : Cfg} {m : Nat} (h : Refuses c m) {var varFrom : Nat} (hi : var < c.n)
    (hd : c.dom var = m) (son : Ptr) (s : Mgr) : Aborts (undefinedExcept c varFrom var son) s .assertion := by
  unfold Teddy.undefinedExcept
  refine Aborts.afterEq (s' := s) (a := c.dom var) (by simp [getDomain, hi]) ?_
  refine Aborts.bind ?_
  obtain ⟨k, hk⟩ : ∃ k, c.dom var = k + 2 := ⟨m - 2, by have := h.two; omega⟩
  rw [hk, List.range_succ_eq_map, List.range_succ_eq_map]
  by_cases h0 : (0 : Nat) = varFrom
  · refine Aborts.afterEq (s' := s) (a := son) (by simp [h0]) ?_
    refine Aborts.bind ?_
    have h1 : Nat.succ 0 ≠ varFrom := by omega
    simp only [List.map_cons]
    refine Aborts.mapL ?_
    simp only [h1, if_false]
    exact h.terminal s
  · refine Aborts.mapL ?_
    simp only [h0, if_false]
    exact h.terminal s

theorem toDpldEImpl_aborts {m : Nat} (hR : Refuses E.c m) (g : Good E ext s) {varFrom var : Nat} (hi : var < E.c.n) :
    ∀ (f : Nat) (p : Ptr), s.used p = true → (∀ q, Reach s.kind p q → NotVar s var q) →
      s.levelOf E.c p < s.idx2lvl var → E.c.n - s.levelOf E.c p < f →
      Aborts (toDpldEImpl E.c varFrom var f p fun _ => none) s .assertion := by
  have hvl := g.inv.order.i2l_lt var hi
  intro f
  induction f with
  | zero => intro p _ _ _ h; omega
  | succ f ih =>
      intro p hp hn hlt hfu
      simp only [toDpldEImpl]
      refine Aborts.afterEq (getKind_ok hp) ?_
      cases hk : s.kind p with
      | leaf v => simp only [Mgr.levelOf, hk] at hlt; omega
      | inner i ss =>
          obtain ⟨hin, hlen, hu⟩ := g.inv.sons p i ss hp hk
          dsimp only
          refine Aborts.afterEq (s' := s) (a := s) rfl ?_
          refine Aborts.bind ?_
          obtain ⟨q, qs, rfl⟩ : ∃ q qs, ss = q :: qs := by
            cases ss with
            | nil =>
                have := g.cfg.1 i hin
                rw [List.length_nil] at hlen
                omega
            | cons q qs => exact ⟨q, qs, rfl⟩
          have hq : q ∈ q :: qs := by simp
          have hql := g.ord p i _ q hp hk hq
          have hqu := hu q hq
          refine Aborts.mapAccL ?_
          refine Aborts.afterEq (getLevel_ok hqu) ?_
          have hlp : s.levelOf E.c p = s.idx2lvl i := by simp [Mgr.levelOf, hk]
          by_cases hc : s.idx2lvl var < s.levelOf E.c q
          · rw [if_pos ⟨by omega, hc⟩]
            exact Aborts.bind (hR.undefinedExcept hi (g.cfg.2 m hR.fixed var hi) q s)
          · rw [if_neg (fun h => hc h.2)]
            refine ih q hqu (fun r hr => hn r (.step hk hq hr)) ?_ (by omega)
            refine lt_of_le_of_ne (by omega) fun e => ?_
            cases hkq : s.kind q with
            | leaf v => simp only [Mgr.levelOf, hkq] at e; omega
            | inner j ts =>
                simp only [Mgr.levelOf, hkq] at e
                obtain ⟨hj, _⟩ := g.inv.sons q j ts hqu hkq
                have : j = var := by
                  rw [← g.inv.order.i2l2i j hj, ← g.inv.order.i2l2i var hi, e]
                exact hn q (.step hk hq .refl) ts (by rw [← this]; exact hkq)

theorem toDpldE_aborts {m : Nat} (hR : Refuses E.c m) (g : Good E ext s) {varFrom var : Nat} (hi : var < E.c.n)
    {p : Ptr} (hp : s.used p = true) (hn : ∀ q, Reach s.kind p q → NotVar s var q) :
    Aborts (toDpldE E.c varFrom var p) s .assertion := by
  have hvl := g.inv.order.i2l_lt var hi
  unfold toDpldE
  refine Aborts.afterEq (getLevel_ok hp) ?_
  refine Aborts.afterEq (s' := s) (a := s) rfl ?_
  rw [if_pos hi]
  by_cases hc : s.idx2lvl var < s.levelOf E.c p
  · rw [if_pos hc]
    exact Aborts.bind (hR.undefinedExcept hi (g.cfg.2 m hR.fixed var hi) p s)
  · rw [if_neg hc]
    refine Aborts.bind (toDpldEImpl_aborts hR g hi _ p hp hn ?_ (by omega))
    refine lt_of_le_of_ne (by omega) fun e => ?_
    cases hk : s.kind p with
    | leaf v => simp only [Mgr.levelOf, hk] at e; omega
    | inner j ts =>
        simp only [Mgr.levelOf, hk] at e
        obtain ⟨hj, _⟩ := g.inv.sons p j ts hp hk
        have : j = var := by
          rw [← g.inv.order.i2l2i j hj, ← g.inv.order.i2l2i var hi, e]
        exact hn p .refl ts (by rw [← this]; exact hk)

theorem vectorsG_aborts {m : Nat} (hR : Refuses E.c m) (hau : E.auto = false) (g : Good E ext s) {root : Ptr}
    (hr : 0 < ext root) {f : Asg → Int} (hd : Den E.c s root f) {ch : Int → Int → Bool} {vcs : List VarChange}
    (hne : vcs ≠ [])
    (hvc : ∀ vc ∈ vcs, vc.index < E.c.n ∧ vc.from < E.c.dom vc.index ∧ vc.to < E.c.dom vc.index) :
    Aborts (vectorsG E.c ch root vcs) s .assertion := by
  have h1 : TermOK E.c 1 := ⟨by decide, fun _ m' h => by rw [hR.fixed] at h; cases h; have := hR.two; omega⟩
  have h0 : TermOK E.c 0 := h1.of_le (by omega) (by omega)
  unfold vectorsG
  refine Aborts.bind ?_
  obtain ⟨vc, vcs, rfl⟩ : ∃ v vs, vcs = v :: vs := by
    cases vcs with
    | nil => exact absurd rfl hne
    | cons v vs => exact ⟨v, vs, rfl⟩
  obtain ⟨hi, hfr, hto⟩ := hvc vc (by simp)
  refine Aborts.mapL ?_
  refine Aborts.after (dpld_good hau g (handle_prot hr) hd (vc := vc) (ch := ch) (fun _ => hfr) (fun _ => hto) h0 h1) ?_
  rintro d s1 ⟨nd, av⟩
  have g1 := nd.handle.good
  have hdp : 0 < addExt ext d d := by simp [addExt, upd_same]
  exact Aborts.bind (toDpldE_aborts hR g1 hi (g1.inv.extUsed d hdp) av)

end

end Teddy

import Verif.Proofs.Sizes
import Verif.ProgramSpec

/-! Runs of whole programs; two runs with different settings. -/

namespace Teddy

open SM Spec

theorem next_out (c : Cfg) (σ : SState) {k : Call} (hk : k ≠ .forceReorder) (o : Out) :
    next c σ k o = next c σ k .unit := by
  cases k <;> first | rfl | exact absurd rfl hk

theorem next_canon (c : Cfg) (σ : SState) {k : Call} (hk : k ≠ .forceReorder) (o : Out) :
    (next c σ k o).canon = σ.canon := by
  cases k <;> first | rfl | exact absurd rfl hk

theorem Spec.CountFuns.unique {n : Nat} {dom : Nat → Nat} {F : (Asg → Int) → Prop} {k k' : Nat}
    (h : CountFuns n dom F k) (h' : CountFuns n dom F k') : k = k' := by
  refine Nat.le_antisymm ?_ ?_
  · obtain ⟨gs, rfl, -, -, hc⟩ := h'
    exact h.le gs hc
  · obtain ⟨gs, rfl, -, -, hc⟩ := h
    exact h'.le gs hc

variable {P P' : Setup}

theorem SameManager.cfg (h : SameManager P P') :
    P'.c = { P.c with extra := P'.c.extra, hash := P'.c.hash, chash := P'.c.chash, addr := P'.c.addr } := by
  obtain ⟨c, pool, order, Γ⟩ := P
  obtain ⟨c', pool', order', Γ'⟩ := P'
  obtain ⟨h1, h2, h3, h4, h5, h6⟩ := h
  cases c
  cases c'
  simp only [Cfg.mk.injEq] at *
  simp_all

theorem SameManager.next (h : SameManager P P') (σ : SState) (k : Call) (o : Out) :
    next P'.c σ k o = next P.c σ k o := by
  rw [h.cfg]
  cases k <;> rfl

/-- The specification determines the answers, if there was no reordering. -/
theorem OutOK.same {σ : SState} (hs : SameManager P P') (hc : σ.canon = true) {k : Call}
    (hk : k ≠ .forceReorder) {o o' : Out}
    (h : OutOK P σ o k) (h' : OutOK P' σ o' k) : SameAnswer k o o' := by
  unfold OutOK at h'
  rw [← hs.n, ← hs.dom, ← hs.asserts] at h'
  cases k
  case forceReorder => exact absurd rfl hk
  case dependencySet a =>
    obtain ⟨l, rfl, h1, h2, h3⟩ := h
    obtain ⟨l', rfl, h1', h2', h3'⟩ := h'
    refine ⟨l, l', rfl, rfl, (List.perm_ext_iff_of_nodup h1 h1').2 fun i => ⟨fun hi => ?_, fun hi => ?_⟩⟩
    · obtain ⟨h4, h5⟩ := h3 hc i hi
      exact h2' i h4 h5
    · obtain ⟨h4, h5⟩ := h3' hc i hi
      exact h2 i h4 h5
  case nodeCount =>
    obtain ⟨m, rfl⟩ := h
    obtain ⟨m', rfl⟩ := h'
    exact ⟨m, m', rfl, rfl⟩
  case hashOf a =>
    obtain ⟨m, rfl⟩ := h
    obtain ⟨m', rfl⟩ := h'
    exact ⟨m, m', rfl, rfl⟩
  case nodeCountOf a =>
    obtain ⟨m, rfl, -, h1⟩ := h
    obtain ⟨m', rfl, -, h1'⟩ := h'
    exact congrArg Out.nat ((h1 hc).unique (h1' hc))
  case equals a b =>
    obtain ⟨r, rfl, h1, h2⟩ := h
    obtain ⟨r', rfl, h1', h2'⟩ := h'
    refine congrArg Out.bool (Bool.eq_iff_iff.2 ⟨fun e => h2' hc (h1 e), fun e => h2 hc (h1' e)⟩)
  case satisfyOne v a =>
    obtain ⟨r, rfl, -, h1⟩ := h
    obtain ⟨r', rfl, -, h1'⟩ := h'
    exact congrArg Out.asg ((h1 hc).trans (h1' hc).symm)
  all_goals exact Eq.trans h (Eq.symm h')

theorem execAll_same (hs : SameManager P P') : ∀ (ks : List Call) {σ : SState} {w w' : World}, σ.canon = true →
    Rel P σ w → Rel P' σ w' → AdmAll P σ ks → AdmAll P' σ ks →
    ∃ os os' v v', execAll P.c ks w = .ok (os, v) ∧ execAll P'.c ks w' = .ok (os', v') ∧ SameAnswers ks os os'
  | [], σ, w, w', _, _, _, _, _ => ⟨[], [], w, w', rfl, rfl, trivial⟩
  | k :: ks, σ, w, w', hc, R, R', ha, ha' => by
      obtain ⟨hk, ha1, ha2⟩ := ha
      obtain ⟨-, ha1', ha2'⟩ := ha'
      obtain ⟨o, v, e, ho, r⟩ := sim R ha1.1 ha1.2
      obtain ⟨o', v', e', ho', r'⟩ := sim R' ha1'.1 ha1'.2
      rw [next_out _ _ hk] at r r'
      rw [hs.next] at r' ha2'
      obtain ⟨os, os', u, u', e2, e2', h2⟩ := execAll_same hs ks (by rw [next_canon _ _ hk]; exact hc) r r' ha2 ha2'
      refine ⟨o :: os, o' :: os', u, u', ?_, ?_, ho.same hs hc hk ho', h2⟩
      · simp only [execAll]
        rw [bind_ok e, bind_ok e2]
        rfl
      · simp only [execAll]
        rw [bind_ok e', bind_ok e2']
        rfl

/-! ### Housekeeping -/

/-- The states differ in what is known about the cache only. -/
def Alike (σ σ' : SState) : Prop := ∃ b, σ' = { σ with cacheOK := b }

theorem alike_next {σ σ' : SState} (h : Alike σ σ') (c : Cfg) {k : Call} (hk : k ≠ .forceReorder) (o : Out) :
    Alike (next c σ k o) (next c σ' k o) := by
  obtain ⟨b, rfl⟩ := h
  cases k <;> first | exact absurd rfl hk | exact ⟨_, rfl⟩

theorem alike_out {σ σ' : SState} (h : Alike σ σ') {k : Call} {o : Out} (ho : OutOK P σ' o k) : OutOK P σ o k := by
  obtain ⟨b, rfl⟩ := h
  cases k <;> exact ho

theorem alike_housekeeping (c : Cfg) (σ : SState) {k : Call} (hk : k.isHousekeeping = true) (o : Out) :
    Alike σ (next c σ k o) := by
  cases k <;> first | exact ⟨_, rfl⟩ | cases hk

theorem Alike.symm {σ σ' : SState} (h : Alike σ σ') : Alike σ' σ := by
  obtain ⟨b, rfl⟩ := h
  exact ⟨_, rfl⟩

theorem Alike.trans {σ σ' σ'' : SState} (h : Alike σ σ') (h' : Alike σ' σ'') : Alike σ σ'' := by
  obtain ⟨b, rfl⟩ := h
  obtain ⟨b', rfl⟩ := h'
  exact ⟨_, rfl⟩

theorem execAll_essential (hs : SameManager P P') : ∀ (ks ks' : List Call) {σ σ' : SState} {w w' : World},
    essential ks = essential ks' → σ.canon = true → Alike σ σ' → Rel P σ w → Rel P' σ' w' → AdmAll P σ ks →
    AdmAll P' σ' ks' →
    ∃ os os' v v', execAll P.c ks w = .ok (os, v) ∧ execAll P'.c ks' w' = .ok (os', v') ∧
      SameAnswers (essential ks) (essentialAnswers ks os) (essentialAnswers ks' os')
  | [], [], σ, σ', w, w', _, _, _, _, _, _, _ => ⟨[], [], w, w', rfl, rfl, trivial⟩
  | k :: ks, ks', σ, σ', w, w', he, hc, hl, R, R', ha, ha' => by
      obtain ⟨hk, ha1, ha2⟩ := ha
      obtain ⟨o, v, e, ho, r⟩ := sim R ha1.1 ha1.2
      rw [next_out _ _ hk] at r
      have hc1 : (next P.c σ k .unit).canon = true := by rw [next_canon _ _ hk]; exact hc
      by_cases hh : k.isHousekeeping = true
      · have he' : essential ks = essential ks' := by
          rw [← he]; unfold essential; rw [List.filter_cons_of_neg (by simp [hh])]
        obtain ⟨os, os', u, u', e2, e2', h2⟩ := execAll_essential hs ks ks' he' hc1
          ((alike_housekeeping P.c σ hh .unit).symm.trans hl) r R' ha2 ha'
        refine ⟨o :: os, os', u, u', ?_, e2', ?_⟩
        · simp only [execAll]
          rw [bind_ok e, bind_ok e2]
          rfl
        · simp only [essentialAnswers, if_pos hh]
          rw [he, ← he']
          exact h2
      · cases ks' with
        | nil =>
            unfold essential at he
            rw [List.filter_cons_of_pos (by simp [hh])] at he
            cases he
        | cons k' ks' =>
          obtain ⟨hk', ha1', ha2'⟩ := ha'
          obtain ⟨o', v', e', ho', r'⟩ := sim R' ha1'.1 ha1'.2
          rw [next_out _ _ hk'] at r'
          by_cases hh' : k'.isHousekeeping = true
          · have he' : essential (k :: ks) = essential ks' := by
              rw [he]; unfold essential; rw [List.filter_cons_of_neg (by simp [hh'])]
            obtain ⟨os, os', u, u', e2, e2', h2⟩ := execAll_essential hs (k :: ks) ks' he' hc
              (hl.trans (alike_housekeeping P'.c σ' hh' .unit)) R r' ⟨hk, ha1, ha2⟩ ha2'
            refine ⟨os, o' :: os', u, u', e2, ?_, ?_⟩
            · simp only [execAll]
              rw [bind_ok e', bind_ok e2']
              rfl
            · rw [show essentialAnswers (k' :: ks') (o' :: os') = essentialAnswers ks' os' from if_pos hh']
              exact h2
          · have he0 := he
            unfold essential at he
            rw [List.filter_cons_of_pos (by simp [hh]), List.filter_cons_of_pos (by simp [hh'])] at he
            obtain ⟨rfl, he'⟩ := List.cons.inj he
            rw [hs.next] at r' ha2'
            obtain ⟨os, os', u, u', e2, e2', h2⟩ := execAll_essential hs ks ks' he' hc1
              (alike_next hl P.c hk .unit) r r' ha2 ha2'
            refine ⟨o :: os, o' :: os', u, u', ?_, ?_, ?_⟩
            · simp only [execAll]
              rw [bind_ok e, bind_ok e2]
              rfl
            · simp only [execAll]
              rw [bind_ok e', bind_ok e2']
              rfl
            · simp only [essentialAnswers, if_neg hh]
              rw [show essential (k :: ks) = k :: essential ks from List.filter_cons_of_pos (by simp [hh])]
              exact ⟨ho.same hs hc hk (alike_out hl ho'), h2⟩
  | [], k' :: ks', σ, σ', w, w', he, hc, hl, R, R', ha, ha' => by
      obtain ⟨hk', ha1', ha2'⟩ := ha'
      obtain ⟨o', v', e', ho', r'⟩ := sim R' ha1'.1 ha1'.2
      rw [next_out _ _ hk'] at r'
      have hh' : k'.isHousekeeping = true := by
        cases h : k'.isHousekeeping with
        | true => rfl
        | false =>
          unfold essential at he
          rw [List.filter_cons_of_pos (by simp [h])] at he
          cases he
      have he' : essential [] = essential ks' := by
        rw [he]; unfold essential; rw [List.filter_cons_of_neg (by simp [hh'])]
      obtain ⟨os, os', u, u', e2, e2', h2⟩ := execAll_essential hs [] ks' he' hc
        (hl.trans (alike_housekeeping P'.c σ' hh' .unit)) R r' ha ha2'
      refine ⟨os, o' :: os', u, u', e2, ?_, ?_⟩
      · simp only [execAll]
        rw [bind_ok e', bind_ok e2']
        rfl
      · rw [show essentialAnswers (k' :: ks') (o' :: os') = essentialAnswers ks' os' from if_pos hh']
        exact h2
  termination_by ks ks' => ks.length + ks'.length

end Teddy

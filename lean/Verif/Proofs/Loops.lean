import Verif.NodeManager
import Verif.Proofs.TableLemmas

/-! Run equations of the small node operations and rules for loops. -/

namespace Teddy

open SM

theorem throw_run {σ α : Type} (e : Err) (s : σ) :
    (throw e : SM σ α) s = .error e := rfl

theorem chkUsed_ok {s : Mgr} {p : Ptr} (h : s.used p = true) : chkUsed p s = .ok ((), s) := by
  simp [chkUsed, bind_run, h]

theorem getKind_ok {s : Mgr} {p : Ptr} (h : s.used p = true) :
    getKind p s = .ok (s.kind p, s) := by
  simp [getKind, bind_run, chkUsed_ok h]; rfl

theorem setMarked_ok {s : Mgr} {p : Ptr} (h : s.used p = true) :
    setMarked p s = .ok ((), { s with mark := upd s.mark p true }) := by
  simp [setMarked, bind_run, chkUsed_ok h]

theorem setNotMarked_ok {s : Mgr} {p : Ptr} (h : s.used p = true) :
    setNotMarked p s = .ok ((), { s with mark := upd s.mark p false }) := by
  simp [setNotMarked, bind_run, chkUsed_ok h]

theorem toggleMarked_ok {s : Mgr} {p : Ptr} (h : s.used p = true) :
    toggleMarked p s = .ok ((), { s with mark := upd s.mark p (!s.mark p) }) := by
  simp [toggleMarked, bind_run, chkUsed_ok h]

theorem isMarked_ok {s : Mgr} {p : Ptr} (h : s.used p = true) :
    isMarked p s = .ok (s.mark p, s) := by
  simp [isMarked, bind_run, chkUsed_ok h]; rfl

theorem incRef_ok {s : Mgr} {p : Ptr} (h : s.used p = true) :
    incRef p s = .ok ((), { s with refs := upd s.refs p (s.refs p + 1) }) := by
  simp [incRef, bind_run, chkUsed_ok h]

theorem decRef_ok {s : Mgr} {p : Ptr} (h : s.used p = true) (hr : 0 < s.refs p) :
    decRef p s = .ok ((), { s with refs := upd s.refs p (s.refs p - 1) }) := by
  have : s.refs p ≠ 0 := by omega
  simp [decRef, bind_run, chkUsed_ok h, this]

theorem getLevel_ok {c : Cfg} {s : Mgr} {p : Ptr} (h : s.used p = true) :
    getLevel c p s = .ok (s.levelOf c p, s) := by
  simp [getLevel, bind_run, chkUsed_ok h]; rfl

theorem getIndex_ok {c : Cfg} {s : Mgr} {l : Nat} (h : l < c.n) :
    getIndex c l s = .ok (s.lvl2idx l, s) := by
  simp [getIndex, bind_run, h]

theorem getSon_ok {s : Mgr} {p q : Ptr} {k i : Nat} {ss : List Ptr} (h : s.used p = true)
    (hk : s.kind p = .inner i ss) (hq : ss[k]? = some q) :
    getSon p k s = .ok (q, s) := by
  simp [getSon, bind_run, getKind_ok h, hk, hq]

theorem decRef_all {l : List Ptr} {s : Mgr} (hu : ∀ p ∈ l, s.used p = true)
    (hr : ∀ p, l.count p ≤ s.refs p) :
    forL decRef l s = .ok ((), { s with refs := fun p => s.refs p - l.count p }) := by
  induction l generalizing s with
  | nil => simp [forL]
  | cons a l ih =>
      have h1 := hr a
      simp only [List.count_cons_self] at h1
      simp only [forL]
      rw [bind_ok (decRef_ok (hu a (by simp)) (by omega))]
      rw [ih (by intro p hp; exact hu p (by simp [hp])) (by
        intro p
        have := hr p
        simp only [upd_apply]
        split
        · rename_i e; subst e; rw [List.count_cons_self] at this; omega
        · rename_i e; rw [List.count_cons_of_ne (Ne.symm e)] at this; omega)]
      congr 3
      funext p
      simp only [upd_apply]
      split
      · rename_i e; subst e; rw [List.count_cons_self]; omega
      · rename_i e; rw [List.count_cons_of_ne (Ne.symm e)]

theorem incRef_all {l : List Ptr} {s : Mgr} (hu : ∀ p ∈ l, s.used p = true) :
    forL incRef l s = .ok ((), { s with refs := fun p => s.refs p + l.count p }) := by
  induction l generalizing s with
  | nil => simp [forL]
  | cons a l ih =>
      simp only [forL]
      rw [bind_ok (incRef_ok (hu a (by simp)))]
      rw [ih (by intro p hp; exact hu p (by simp [hp]))]
      congr 3
      funext p
      simp only [upd_apply]
      split
      · rename_i e; subst e; rw [List.count_cons_self]; omega
      · rename_i e; rw [List.count_cons_of_ne (Ne.symm e)]

theorem setNotMarked_all {l : List Ptr} {s : Mgr} (hu : ∀ p ∈ l, s.used p = true) :
    forL setNotMarked l s
      = .ok ((), { s with mark := fun p => if p ∈ l then false else s.mark p }) := by
  induction l generalizing s with
  | nil => simp [forL]
  | cons a l ih =>
      simp only [forL]
      rw [bind_ok (setNotMarked_ok (hu a (by simp)))]
      rw [ih (by intro p hp; exact hu p (by simp [hp]))]
      congr 3
      funext p
      simp only [upd_apply, List.mem_cons]
      by_cases h1 : p ∈ l <;> by_cases h2 : p = a <;> simp [h1, h2]

/-- Rule for `forL`: an invariant indexed by the elements still to be processed. -/
theorem forL_rule {σ α : Type} {f : α → SM σ Unit} (I : List α → σ → Prop)
    (hf : ∀ a l s, I (a :: l) s → Ok (f a) s (fun _ s' => I l s')) :
    ∀ (l : List α) (s : σ), I l s → Ok (forL f l) s (fun _ s' => I [] s') := by
  intro l
  induction l with
  | nil => intro s h; exact Ok.pure h
  | cons a l ih =>
      intro s h
      exact Ok.bind (hf a l s h) (fun _ s' h' => ih s' h')

theorem foldL_rule {σ α τ : Type} {f : α → τ → SM σ τ} (I : List α → τ → σ → Prop)
    (hf : ∀ a l t s, I (a :: l) t s → Ok (f a t) s (fun t' s' => I l t' s')) :
    ∀ (l : List α) (t : τ) (s : σ), I l t s → Ok (foldL f l t) s (fun t' s' => I [] t' s') := by
  intro l
  induction l with
  | nil => intro t s h; exact Ok.pure h
  | cons a l ih =>
      intro t s h
      exact Ok.bind (hf a l t s h) (fun t' s' h' => ih t' s' h')

/-- Rule for `mapL`: results so far, elements still to be processed. -/
theorem mapL_rule {σ α β : Type} {f : α → SM σ β} (I : List β → List α → σ → Prop)
    (hf : ∀ bs a l s, I bs (a :: l) s → Ok (f a) s (fun b s' => I (bs ++ [b]) l s')) :
    ∀ (l : List α) (bs : List β) (s : σ), I bs l s →
      Ok (mapL f l) s (fun rs s' => I (bs ++ rs) [] s') := by
  intro l
  induction l with
  | nil => intro bs s h; exact Ok.pure (by simpa using h)
  | cons a l ih =>
      intro bs s h
      refine Ok.bind (hf bs a l s h) (fun b s' h' => ?_)
      refine Ok.bind (ih (bs ++ [b]) s' h') (fun rs s'' h'' => ?_)
      exact Ok.pure (by simpa using h'')

theorem mapAccL_rule {σ α β τ : Type} {f : α → τ → SM σ (β × τ)}
    (I : List β → List α → τ → σ → Prop)
    (hf : ∀ bs a l t s, I bs (a :: l) t s → Ok (f a t) s (fun r s' => I (bs ++ [r.1]) l r.2 s')) :
    ∀ (l : List α) (bs : List β) (t : τ) (s : σ), I bs l t s →
      Ok (mapAccL f l t) s (fun r s' => I (bs ++ r.1) [] r.2 s') := by
  intro l
  induction l with
  | nil => intro bs t s h; exact Ok.pure (by simpa using h)
  | cons a l ih =>
      intro bs t s h
      simp only [mapAccL]
      refine Ok.bind (hf bs a l t s h) (fun r s' h' => ?_)
      refine Ok.bind (ih (bs ++ [r.1]) r.2 s' h') (fun r2 s'' h'' => ?_)
      exact Ok.pure (by simpa using h'')

end Teddy

import Verif.Proofs.NodeCount
import Verif.Proofs.SatOne
import Verif.Proofs.Deferred
import Verif.Proofs.Probability
import Verif.Proofs.Mcvs
import Verif.Proofs.Mnf
import Verif.Proofs.FromPla
import Verif.WorldSpec

/-! Every admissible call runs without error and does what the specification says. -/

namespace Teddy

open SM Spec

/-- What is maintained for a specification state. -/
def envOf (P : Setup) (σ : SState) : Env := ⟨P.c, P.Γ, σ.canon, σ.cacheOK, P.pool, σ.auto⟩

/-- Handles held by the program. -/
def extW (w : World) : Ptr → Nat := extL (fun _ => 0) w.slots

/-- The world implements the specification state. -/
structure Rel (P : Setup) (σ : SState) (w : World) : Prop where
  good : Good (envOf P σ) (extW w) w.mgr
  len : w.slots.length = σ.slots.length
  has : ∀ a f, σ.Has a f → HoldsAt P.c w.mgr w.slots a f
  empty : ∀ a : Nat, σ.slots[a]? = some none → w.slots[a]? = some none
  order : levelVars P.c w.mgr = σ.order
  clean : σ.clean = true → ∀ p, w.mgr.mark p = false

section
variable {P : Setup} {σ : SState} {w : World}

theorem SState.Has.fn {a : Nat} {f : Asg → Int} (h : σ.Has a f) : σ.fn a = f := by
  unfold SState.Has at h
  simp [SState.fn, h]

theorem SState.Has.lt {a : Nat} {f : Asg → Int} (h : σ.Has a f) : a < σ.slots.length := by
  unfold SState.Has at h
  by_contra hc
  rw [List.getElem?_eq_none (by omega)] at h
  cases h

theorem SState.HasAll.fn {as : List Nat} {fs : List (Asg → Int)} (h : σ.HasAll as fs) :
    as.map σ.fn = fs := by
  induction h with
  | nil => rfl
  | cons h1 _ ih => simp [h1.fn, ih]

theorem slot_pos {a : Nat} {p : Ptr} (h : w.slots[a]? = some (some p)) :
    0 < extW w p := extL_pos h

theorem rootOf_ok {a : Nat} {p : Ptr} (h : w.slots[a]? = some (some p)) :
    rootOf a w = .ok (p, w) := by simp [rootOf, h]

theorem onMgr_ok {α : Type} {m : M α} {Q : α → World → Prop}
    (h : Ok m w.mgr (fun a s => Q a { w with mgr := s })) : Ok (onMgr m) w Q := by
  obtain ⟨a, s, e, q⟩ := h
  exact ⟨a, { w with mgr := s }, by simp [onMgr, e], q⟩

theorem extW_push {p r : Ptr} {s : Mgr} :
    extW { mgr := s, slots := w.slots ++ [some r] } p = addExt (extW w) r p := by
  simp only [extW, extL, addExt, upd_apply, List.count_append, List.count_cons, List.count_nil]
  by_cases e : p = r
  · subst e; simp
  · simp [e, Ne.symm e]

/-- A new handle is appended; the order and the flags may change. -/
theorem Rel.pushed (R : Rel P σ w) {τ : SState} {f : Asg → Int} {r : Ptr} {s : Mgr}
    (hs : τ.slots = σ.slots ++ [some f]) (g : Good (envOf P τ) (addExt (extW w) r) s)
    (hkeep : ∀ a g, σ.Has a g → HoldsAt P.c s w.slots a g) (hd : Den P.c s r f) (ho : levelVars P.c s = τ.order)
    (hc : τ.clean = true → ∀ p, s.mark p = false) : Rel P τ ⟨s, w.slots ++ [some r]⟩ := by
  refine
    { good := g.ext_eq (fun p => extW_push.symm), len := by simp [R.len, hs]
      has := ?_, empty := ?_, order := ho, clean := hc }
  · intro a g hg
    unfold SState.Has at hg
    rw [hs] at hg
    by_cases ha : a < σ.slots.length
    · rw [List.getElem?_append_left ha] at hg
      obtain ⟨p, h1, h2⟩ := hkeep a g hg
      refine ⟨p, ?_, h2⟩
      rw [List.getElem?_append_left (by rw [R.len]; exact ha)]
      exact h1
    · rw [List.getElem?_append_right (by omega)] at hg
      have h0 : a - σ.slots.length = 0 := by
        by_contra hc
        rw [List.getElem?_eq_none (by simp; omega)] at hg; cases hg
      rw [h0] at hg
      simp at hg
      subst hg
      refine ⟨r, ?_, hd⟩
      have : a = w.slots.length := by rw [R.len]; omega
      subst this
      simp
  · intro a ha
    rw [hs] at ha
    dsimp only at ha ⊢
    by_cases hl : a < σ.slots.length
    · rw [List.getElem?_append_left hl] at ha
      rw [List.getElem?_append_left (by rw [R.len]; exact hl)]
      exact R.empty a ha
    · rw [List.getElem?_append_right (by omega)] at ha
      have h0 : a - σ.slots.length = 0 := by
        by_contra hc
        rw [List.getElem?_eq_none (by simp; omega)] at ha; cases ha
      rw [h0] at ha
      simp at ha

theorem making_core (R : Rel P σ w) {m : M Ptr} {f : Asg → Int} (b : Bool)
    (h : Ok m w.mgr (fun r s' => ResM (envOf P σ) (extW w) w.mgr f r s' ∧
      (b = true → ∀ p, s'.mark p = false))) :
    Ok (making m) w (fun o w' => o = .slot σ.slots.length ∧
      Rel P { σ with slots := σ.slots ++ [some f], clean := b } w') := by
  unfold making
  obtain ⟨r, s, e, res, hmark⟩ := h
  refine Ok.bindEq (a := r) (s' := { w with mgr := s }) (by simp [onMgr, e]) ?_
  refine ⟨_, _, rfl, by rw [R.len], ?_⟩
  refine R.pushed rfl res.good (fun a g hg => (R.has a g hg).keeps (ext := fun _ => 0) res.keeps) res.den ?_ hmark
  rw [← R.order]
  unfold levelVars
  rw [res.keeps.l2i]

/-- A call that makes a diagram of `f` and then runs the reordering that may be due. -/
theorem making_deferred (R : Rel P σ w) {m : M Ptr} {f : Asg → Int}
    (h : Ok m w.mgr (fun r s' => Good { envOf P σ with canon := false } (addExt (extW w) r) s' ∧
      (∀ p, 0 < extW w p → ∀ x, Valid P.c x → ∀ v, Ev w.mgr.kind x p v → Ev s'.kind x p v) ∧
      Den P.c s' r f ∧ ∀ p, s'.mark p = true → w.mgr.mark p = true)) :
    Ok (making m) w (fun o w' => o = .slot σ.slots.length ∧
      Rel P { σ with slots := σ.slots ++ [some f], order := levelVars P.c w'.mgr, canon := false } w') := by
  unfold making
  obtain ⟨r, s, e, g, hev, hd, hm⟩ := h
  refine Ok.bindEq (a := r) (s' := { w with mgr := s }) (by simp [onMgr, e]) ?_
  refine ⟨_, _, rfl, by rw [R.len], ?_⟩
  refine R.pushed rfl g (fun a g hg => ?_) hd rfl (fun hc p => ?_)
  · obtain ⟨p, h1, h2⟩ := R.has a g hg
    exact ⟨p, h1, fun x hx => hev p (extL_pos h1) x hx _ (h2 x hx)⟩
  · by_contra h
    have := hm p (by simpa using h)
    rw [R.clean hc p] at this
    cases this

/-- What `run_deferred` does to a diagram that was just made. -/
theorem deferred_post {E : Env} {ext : Ptr → Nat} {s s1 : Mgr} {f : Asg → Int} {r : Ptr}
    (nd : NewDiagram E ext s f r s1) :
    Ok (runDeferred E.c) s1 (fun _ s' => Good { E with canon := false } (addExt ext r) s' ∧
      (∀ p, 0 < ext p → ∀ x, Valid E.c x → ∀ v, Ev s.kind x p v → Ev s'.kind x p v) ∧
      Den E.c s' r f ∧ ∀ p, s'.mark p = true → s.mark p = true) := by
  refine (runDeferred_any nd.handle.good).mono ?_
  rintro _ s' ⟨g, hev, hm⟩
  have pos : ∀ p, 0 < ext p → 0 < addExt ext r p := fun p hp => by
    simp only [addExt, upd_apply]
    split <;> omega
  refine ⟨g, fun p hp x hx v hv => ?_, fun x hx => ?_, fun p h => nd.mark p (hm p h)⟩
  · exact hev p (pos p hp) x hx v ((nd.handle.keeps.toH.ev_iff hp).2 hv)
  · exact hev r (by simp [addExt]) x hx _ (nd.den x hx)

/-- The same without a reordering. -/
theorem NewDiagram.post {E : Env} {ext : Ptr → Nat} {s s1 : Mgr} {f : Asg → Int} {r : Ptr}
    (nd : NewDiagram E ext s f r s1) : Good { E with canon := false } (addExt ext r) s1 ∧
      (∀ p, 0 < ext p → ∀ x, Valid E.c x → ∀ v, Ev s.kind x p v → Ev s1.kind x p v) ∧
      Den E.c s1 r f ∧ ∀ p, s1.mark p = true → s.mark p = true :=
  have g := nd.handle.good
  ⟨⟨g.cfg, g.inv, g.ord, g.pool, g.auto, g.defer, g.pool0, (fun h => nomatch h), g.cache⟩,
    fun _ hp _ _ _ hv => (nd.handle.keeps.toH.ev_iff hp).2 hv, nd.den, nd.mark⟩

/-- A call that makes a diagram of `f`. -/
theorem making_ok (R : Rel P σ w) {m : M Ptr} {f : Asg → Int}
    (h : Ok m w.mgr (fun r s' => Res (envOf P σ) (extW w) w.mgr f r s')) :
    Ok (making m) w (fun o w' => o = .slot σ.slots.length ∧
      Rel P { σ with slots := σ.slots ++ [some f] } w') := by
  refine making_core R σ.clean (h.mono ?_)
  rintro r s' res
  refine ⟨⟨res.good, res.keeps, res.den⟩, ?_⟩
  intro hc p
  by_contra hm
  have := res.mark p (by simpa using hm)
  rw [R.clean hc p] at this
  cases this

/-- A query. -/
theorem query_ok {α : Type} {m : M α} {g : α → Out} {Q : Out → World → Prop}
    (h : Ok m w.mgr (fun r s' => s' = w.mgr ∧ Q (g r) w)) :
    Ok (do let r ← onMgr m; pure (g r)) w Q := by
  obtain ⟨r, s, e, rfl, q⟩ := h
  refine Ok.bindEq (a := r) (s' := w) (by simp [onMgr, e]) (Ok.pure q)

theorem roots_ok (R : Rel P σ w) {as : List Nat} {fs : List (Asg → Int)} (h : σ.HasAll as fs) :
    ∃ ps, mapL rootOf as w = .ok (ps, w) ∧ (∀ p ∈ ps, 0 < extW w p) ∧ Holds P.c w.mgr ps fs := by
  induction h with
  | nil => exact ⟨[], rfl, by simp, .nil⟩
  | cons h1 _ ih =>
      obtain ⟨ps, e, hp, hh⟩ := ih
      obtain ⟨p, hs, hd⟩ := R.has _ _ h1
      refine ⟨p :: ps, ?_, ?_, .cons hd hh⟩
      · simp only [mapL]
        rw [bind_ok (rootOf_ok hs), bind_ok e]
        rfl
      · intro q hq
        rcases List.mem_cons.1 hq with rfl | hq
        · exact extL_pos hs
        · exact hp q hq

/-! ### Handles -/

/-- A handle holds what the specification says. -/
def SlotR (c : Cfg) (s : Mgr) (o : Option Ptr) (t : Option (Asg → Int)) : Prop :=
  match t with
  | some f => ∃ p, o = some p ∧ Den c s p f
  | none => o = none

/-- All handles hold what the specification says. -/
def SlotsR (c : Cfg) (s : Mgr) (ws : List (Option Ptr)) (ts : List (Option (Asg → Int))) : Prop :=
  ws.length = ts.length ∧ ∀ (k : Nat) o t, ws[k]? = some o → ts[k]? = some t → SlotR c s o t

theorem SlotsR.set {c : Cfg} {s : Mgr} {ws : List (Option Ptr)} {ts : List (Option (Asg → Int))}
    (h : SlotsR c s ws ts) (a : Nat) {o : Option Ptr} {t : Option (Asg → Int)}
    (ho : SlotR c s o t) : SlotsR c s (ws.set a o) (ts.set a t) := by
  refine ⟨by simp [h.1], ?_⟩
  intro k o' t' hk ht
  by_cases e : a = k
  · subst e
    rw [List.getElem?_set_self'] at hk ht
    cases hw : ws[a]? with
    | none => rw [hw] at hk; cases hk
    | some u =>
        cases hu : ts[a]? with
        | none => rw [hu] at ht; cases ht
        | some v =>
            rw [hw] at hk; rw [hu] at ht
            cases hk; cases ht
            exact ho
  · rw [List.getElem?_set_ne e] at hk ht
    exact h.2 k o' t' hk ht

theorem Rel.slotsR (R : Rel P σ w) : SlotsR P.c w.mgr w.slots σ.slots := by
  refine ⟨R.len, ?_⟩
  intro k o t hk ht
  cases t with
  | none =>
      have := R.empty k ht
      rw [hk] at this
      cases this; rfl
  | some f =>
      obtain ⟨p, h1, h2⟩ := R.has k f ht
      rw [hk] at h1
      cases h1
      exact ⟨p, rfl, h2⟩

theorem lt_of_getElem?_some {α : Type} {l : List α} {k : Nat} {a : α} (h : l[k]? = some a) :
    k < l.length := by
  by_contra hc
  rw [List.getElem?_eq_none (by omega)] at h
  cases h

theorem Rel.getSlot (R : Rel P σ w) {a : Nat} (ha : a < σ.slots.length) :
    ∃ o t, w.slots[a]? = some o ∧ σ.slots[a]? = some t ∧ SlotR P.c w.mgr o t := by
  have h1 := List.getElem?_eq_getElem (l := w.slots) (i := a) (by rw [R.len]; exact ha)
  have h2 := List.getElem?_eq_getElem ha
  exact ⟨_, _, h1, h2, R.slotsR.2 a _ _ h1 h2⟩

/-- A change of handles that leaves the nodes alone. -/
theorem Rel.handles (R : Rel P σ w) {ys : List (Option Ptr)} {ts : List (Option (Asg → Int))}
    {s' : Mgr} (g : Good (envOf P σ) (extL (fun _ => 0) ys) s') (hm : s'.mark = w.mgr.mark)
    (hk : s'.kind = w.mgr.kind) (hl : s'.lvl2idx = w.mgr.lvl2idx)
    (h : SlotsR P.c w.mgr ys ts) : Rel P { σ with slots := ts } ⟨s', ys⟩ where
  good := g
  len := h.1
  has := by
    intro a f hf
    unfold SState.Has at hf
    dsimp only at hf
    have ha := lt_of_getElem?_some hf
    obtain ⟨p, h1, h2⟩ := h.2 a _ _ (List.getElem?_eq_getElem (by rw [h.1]; exact ha)) hf
    refine ⟨p, by rw [List.getElem?_eq_getElem (by rw [h.1]; exact ha), h1], ?_⟩
    intro x hx
    dsimp only
    rw [hk]; exact h2 x hx
  empty := by
    intro a hf
    dsimp only at hf
    have ha := lt_of_getElem?_some hf
    have h1 := h.2 a _ _ (List.getElem?_eq_getElem (by rw [h.1]; exact ha)) hf
    dsimp only
    rw [List.getElem?_eq_getElem (by rw [h.1]; exact ha)]
    exact congrArg some h1
  order := by
    rw [← R.order]
    unfold levelVars
    dsimp only
    rw [hl]
  clean := by
    intro hc p
    dsimp only
    rw [hm]; exact R.clean hc p

theorem drop_sim (R : Rel P σ w) {a : Nat} (ha : a < σ.slots.length) :
    Ok (exec P.c (.drop a)) w (fun o w' => o = .unit ∧
      Rel P { σ with slots := σ.slots.set a none } w') := by
  obtain ⟨o, t, h1, h2, h3⟩ := R.getSlot ha
  have hs : SlotsR P.c w.mgr (w.slots.set a none) (σ.slots.set a none) := R.slotsR.set a rfl
  simp only [exec]
  refine Ok.bindGet ?_
  rw [h1]
  cases o with
  | none =>
      refine Ok.pure ⟨rfl, ?_⟩
      have e : w.slots.set a none = w.slots := by
        apply List.ext_getElem?
        intro k
        rw [List.getElem?_set']
        split
        · rename_i e; subst e; rw [h1]; rfl
        · rfl
      rw [e] at hs
      exact R.handles R.good rfl rfl rfl hs
  | some p =>
      dsimp only
      have hp : 0 < extW w p := extL_pos h1
      obtain ⟨_, s', e, g, hm, hk, hi, hl, _⟩ := dropHandle_good R.good hp
      refine Ok.bindEq (a := ()) (s' := { w with mgr := s' }) (by simp [onMgr, e]) ?_
      refine Ok.bindMod (Ok.pure ⟨rfl, ?_⟩)
      refine R.handles (g.ext_eq ?_) hm hk hl hs
      intro q
      have := count_set (b := none) (a := some q) h1
      simp only [subExt, extW, extL, upd_apply]
      simp only [Option.some.injEq, reduceCtorEq, if_false] at this
      by_cases e2 : q = p
      · subst e2; simp at this ⊢; omega
      · simp [e2, Ne.symm e2] at this ⊢; omega

theorem assignSlot_none {E : Env} {ext : Ptr → Nat} {s : Mgr} {xs : List (Option Ptr)} {i : Nat}
    {o : Option Ptr} (hi : xs[i]? = some o) (g : Good E (extL ext xs) s) :
    Ok (assignSlot xs i none) s (fun ys s' => ys = xs.set i none ∧
      Good E (extL ext ys) s' ∧ s'.mark = s.mark ∧ s'.kind = s.kind ∧ s'.idx2lvl = s.idx2lvl ∧
      s'.lvl2idx = s.lvl2idx) := by
  unfold assignSlot
  rw [hi]
  have key : ∀ q : Ptr, extL ext (xs.set i none) q + (if o = some q then 1 else 0) = extL ext xs q := by
    intro q
    have := count_set (b := none) (a := some q) hi
    simp only [extL]
    simp only [reduceCtorEq, if_false] at this
    omega
  cases o with
  | none =>
      exact Ok.pure ⟨rfl, g.ext_eq (fun q => by simpa using (key q).symm), rfl, rfl, rfl, rfl⟩
  | some p =>
      refine Ok.bind (dropHandle_good g (extL_pos hi)) ?_
      rintro _ s' ⟨g', hm, hk, h1, h2, _⟩
      refine Ok.pure ⟨rfl, g'.ext_eq ?_, hm, hk, h1, h2⟩
      intro q
      have := key q
      simp only [subExt, upd_apply]
      by_cases e2 : q = p
      · subst e2; simp at this ⊢; omega
      · simp [e2, Ne.symm e2] at this ⊢; omega

theorem assign_sim (R : Rel P σ w) {a b : Nat} (ha : a < σ.slots.length) {f : Asg → Int}
    (hb : σ.Has b f) :
    Ok (exec P.c (.assign a b)) w (fun o w' => o = .unit ∧
      Rel P { σ with slots := σ.slots.set a (some f) } w') := by
  obtain ⟨o, t, h1, h2, h3⟩ := R.getSlot ha
  obtain ⟨p, hp, hd⟩ := R.has b f hb
  simp only [exec]
  refine Ok.bindEq (rootOf_ok hp) ?_
  obtain ⟨q, s1, e1, rfl, nh, hm1, hk1⟩ := copyHandle_good R.good (handle_prot (extL_pos hp))
  refine Ok.bindEq (a := q) (s' := { w with mgr := s1 }) (by simp [onMgr, e1]) ?_
  refine Ok.bindGet ?_
  obtain ⟨ys, s2, e2, rfl, g2, hm2, hk2, _, hl2⟩ := assignSlot_good h1 nh.good
  refine Ok.bindEq (a := w.slots.set a (some q)) (s' := { w with mgr := s2 })
    (by simp only [onMgr]; rw [e2]) ?_
  refine Ok.bindMod (Ok.pure ⟨rfl, ?_⟩)
  exact R.handles g2 (hm2.trans hm1) (hk2.trans hk1) (hl2.trans nh.keeps.l2i)
    (R.slotsR.set a ⟨q, rfl, hd⟩)

theorem move_sim (R : Rel P σ w) {a b : Nat} (ha : a < σ.slots.length) (hb : b < σ.slots.length) :
    Ok (exec P.c (.move a b)) w (fun o w' => o = .unit ∧
      Rel P { σ with slots := (σ.slots.set b none).set a (σ.slots[b]?.join) } w') := by
  obtain ⟨o, t, h1, h2, h3⟩ := R.getSlot ha
  obtain ⟨ob, tb, k1, k2, k3⟩ := R.getSlot hb
  have hs : SlotsR P.c w.mgr ((w.slots.set b none).set a ob)
      ((σ.slots.set b none).set a (σ.slots[b]?.join)) := by
    refine (R.slotsR.set b (o := none) (t := none) rfl).set a ?_
    rw [k2]; exact k3
  simp only [exec]
  refine Ok.bindGet ?_
  have fin : Ok (moveSlot w.slots a b) w.mgr (fun ys s' => ys = (w.slots.set b none).set a ob ∧
      Good (envOf P σ) (extL (fun _ => 0) ys) s' ∧ s'.mark = w.mgr.mark ∧ s'.kind = w.mgr.kind ∧
      s'.idx2lvl = w.mgr.idx2lvl ∧ s'.lvl2idx = w.mgr.lvl2idx) := by
    cases ob with
    | some r => exact moveSlot_good k1 h1 R.good
    | none =>
        unfold moveSlot
        rw [k1]
        dsimp only
        have e : w.slots.set b none = w.slots := by
          apply List.ext_getElem?
          intro k
          rw [List.getElem?_set']
          split
          · rename_i e; subst e; rw [k1]; rfl
          · rfl
        rw [e]
        exact assignSlot_none h1 R.good
  obtain ⟨ys, s2, e2, rfl, g2, hm2, hk2, _, hl2⟩ := fin
  refine Ok.bindEq (a := (w.slots.set b none).set a ob) (s' := { w with mgr := s2 })
    (by simp only [onMgr]; rw [e2]) ?_
  refine Ok.bindMod (Ok.pure ⟨rfl, ?_⟩)
  exact R.handles g2 hm2 hk2 hl2 hs

theorem ptrOf_ok {a : Nat} {o : Option Ptr} (h : w.slots[a]? = some o) : ptrOf a w = .ok (o, w) := by
  simp [ptrOf, h]

theorem count_swap {l : List (Option Ptr)} {a b : Nat} {u v : Option Ptr} (ha : l[a]? = some u)
    (hb : l[b]? = some v) (q : Option Ptr) : ((l.set a v).set b u).count q = l.count q := by
  have h1 := count_set (b := v) (a := q) ha
  have h : (l.set a v)[b]? = some v := by
    rw [List.getElem?_set']
    split
    · rename_i e; subst e; rw [ha]; rfl
    · exact hb
  have h2 := count_set (b := u) (a := q) h
  omega

theorem swap_sim (R : Rel P σ w) {a b : Nat} (ha : a < σ.slots.length) (hb : b < σ.slots.length) :
    Ok (exec P.c (.swap a b)) w (fun o w' => o = .unit ∧
      Rel P { σ with slots := (σ.slots.set a (σ.slots[b]?.join)).set b (σ.slots[a]?.join) } w') := by
  obtain ⟨oa, ta, h1, h2, h3⟩ := R.getSlot ha
  obtain ⟨ob, tb, k1, k2, k3⟩ := R.getSlot hb
  simp only [exec]
  refine Ok.bindEq (ptrOf_ok h1) (Ok.bindEq (ptrOf_ok k1) (Ok.bindMod (Ok.pure ⟨rfl, ?_⟩)))
  rw [h2, k2]
  refine R.handles (R.good.ext_eq fun q => ?_) rfl rfl rfl ((R.slotsR.set a k3).set b h3)
  simp only [extL]
  rw [count_swap h1 k1]
  rfl

/-! ### `tree_fold` on copies -/

theorem treeFoldCopies_good {E : Env} {ext : Ptr → Nat} {s : Mgr} {op : BinOp} (hau : E.auto = false)
    (hca : E.cache = true) (hΓ : E.Γ (opType E.c op).id = opType E.c op)
    {fs : List (Asg → Int)} {ps : List Ptr} (hne : fs ≠ [])
    (hok : TreeOK E.c (opType E.c op) (ceilLog2 fs.length) fs) (g : Good E ext s)
    (hp : ∀ p ∈ ps, 0 < ext p) (hh : Holds E.c s ps fs) :
    Ok (treeFoldCopies E.c op ps) s (fun r s' => Res E ext s (treeFun (opType E.c op) fs) r s') := by
  unfold treeFoldCopies
  refine Ok.bind (copies_good ps s [] (g.ext_eq (fun _ => by simp [extL])) hp) ?_
  rintro qs s1 ⟨rfl, g1, hm1, hk1, hi1, hl1⟩
  have hlen : (qs.map some).length = fs.length := by simpa using hh.length_eq
  refine Ok.bind (treeFold_good hau hca hΓ hne hlen hok (by simpa using g1) ?_) ?_
  · intro j f hf
    have hj : j < qs.length := by rw [hh.length_eq]; exact lt_of_getElem?_some hf
    refine ⟨qs[j], by simp [hj], ?_⟩
    have := (List.forall₂_iff_get.1 hh).2 j hj (lt_of_getElem?_some hf)
    intro x hx
    rw [hk1]
    have hfj : fs[j]'(lt_of_getElem?_some hf) = f := by
      rw [List.getElem?_eq_getElem (lt_of_getElem?_some hf)] at hf
      exact Option.some.inj hf
    rw [← hfj]
    exact this x hx
  rintro ⟨r, rest⟩ s2 ⟨_, g2, k2, d2, m2⟩
  dsimp only at g2 d2 ⊢
  refine Ok.bind (dropAll_good (ext := addExt ext r) rest s2 (g2.ext_eq ?_)) ?_
  · intro q
    simp only [addExt, extL, upd_apply]
    by_cases e : q = r
    · subst e; simp; omega
    · simp [e]
  rintro _ s3 ⟨g3, hm3, hk3, hi3, hl3⟩
  refine Ok.pure ⟨g3, ?_, ?_, ?_⟩
  · exact ((KeepsH.of_kind hk1 hi1 hl1).trans k2).trans (KeepsH.of_kind hk3 hi3 hl3)
  · intro x hx; rw [hk3]; exact d2 x hx
  · intro p hpm
    rw [hm3] at hpm
    rw [← hm1]; exact m2 p hpm

/-! ### `from_pla` -/

theorem fromPla_sim (R : Rel P σ w) {file : Pla.File} {tree : Bool} (hk : Adm P σ (.fromPla file tree))
    (ha : σ.auto = false) :
    Ok (exec P.c (.fromPla file tree)) w (fun o w' =>
      o = .nats (List.range' σ.slots.length (plaFuns P.c.asserts file).length) ∧
      Rel P { σ with slots := σ.slots ++ (plaFuns P.c.asserts file).map some } w') := by
  obtain ⟨h1, h2, h3, h4, h5⟩ := hk
  obtain ⟨ps, s', e, g', k', hh, m'⟩ := fromPla_good (E := envOf P σ) ⟨h1, h2, h3, h4, ha⟩ h5 tree R.good
  simp only [exec]
  refine Ok.bindEq (a := ps) (s' := { w with mgr := s' })
    (by simp only [onMgr]; rw [show fromPla P.c file tree w.mgr = _ from e]) ?_
  refine ⟨_, _, rfl, by dsimp only; rw [R.len, hh.length_eq]; rfl, ?_⟩
  have ek : levelVars P.c s' = levelVars P.c w.mgr := by unfold levelVars; rw [k'.l2i]
  refine
    { good := g'.ext_eq fun p => ?_, len := by simp [R.len, hh.length_eq, envOf]
      has := ?_, empty := ?_, order := ek.trans R.order, clean := ?_ }
  · simp only [extW, extL, List.count_append]; omega
  · intro a f hf
    unfold SState.Has at hf
    dsimp only at hf
    by_cases ha : a < σ.slots.length
    · rw [List.getElem?_append_left ha] at hf
      obtain ⟨p, q1, q2⟩ := (R.has a f hf).keeps (ext := fun _ => 0) k'
      refine ⟨p, ?_, q2⟩
      dsimp only
      rw [List.getElem?_append_left (by rw [R.len]; exact ha)]
      exact q1
    · rw [List.getElem?_append_right (by omega), List.getElem?_map, Option.map_eq_some_iff] at hf
      obtain ⟨f', hf, e'⟩ := hf
      cases e'
      have hj := (List.getElem?_eq_some_iff.1 hf).1
      have hj' : a - σ.slots.length < ps.length := by rw [hh.length_eq]; exact hj
      have hd := (List.forall₂_iff_get.1 hh).2 _ hj' hj
      rw [show (plaFuns (envOf P σ).c.asserts file).get ⟨_, hj⟩ = f from (List.getElem?_eq_some_iff.1 hf).2] at hd
      refine ⟨ps[a - σ.slots.length], ?_, hd⟩
      dsimp only
      rw [List.getElem?_append_right (by rw [R.len]; omega), R.len, List.getElem?_map,
        List.getElem?_eq_getElem hj']
      rfl
  · intro a ha
    dsimp only at ha ⊢
    by_cases hl : a < σ.slots.length
    · rw [List.getElem?_append_left hl] at ha
      rw [List.getElem?_append_left (by rw [R.len]; exact hl)]
      exact R.empty a ha
    · rw [List.getElem?_append_right (by omega), List.getElem?_map, Option.map_eq_some_iff] at ha
      obtain ⟨_, _, e'⟩ := ha
      cases e'
  · intro hc p
    by_contra hm
    have := m' p (by simpa using hm)
    rw [R.clean hc p] at this
    cases this

/-! ### Garbage collection, cache and parameters -/

theorem Canon.sub {s s' : Mgr} (h : Canon s) (hk : s'.kind = s.kind)
    (hu : ∀ p, s'.used p = true → s.used p = true) : Canon s' where
  nonred p i ss hp hkp := h.nonred p i ss (hu p hp) (by rw [← hk]; exact hkp)
  nodup p q i ss hp hq hkp hkq := h.nodup p q i ss (hu p hp) (hu q hq) (by rw [← hk]; exact hkp)
    (by rw [← hk]; exact hkq)

theorem Room.good {E : Env} {ext : Ptr → Nat} {s s' : Mgr} (g : Good E ext s)
    (r : Room E.c ext [] s s') : Good E ext s' := by
  refine g.of_keeps r.keeps r.inv ?_ (fun h => (g.canon h).sub r.kind r.usedSub)
    (fun h => r.cache _ (g.cache h))
  intro p i ss q hp hk hq
  rw [r.levelOf, r.levelOf]
  exact g.ord p i ss q (r.usedSub p hp) (by rw [← r.kind]; exact hk) hq

/-- A change of the manager that leaves nodes and handles alone. -/
theorem Rel.silent (R : Rel P σ w) {s' : Mgr} (g : Good (envOf P σ) (extW w) s')
    (hm : s'.mark = w.mgr.mark) (hk : s'.kind = w.mgr.kind) (hl : s'.lvl2idx = w.mgr.lvl2idx) :
    Rel P σ { w with mgr := s' } :=
  R.handles g hm hk hl R.slotsR

theorem forceGc_sim (R : Rel P σ w) :
    Ok (exec P.c .forceGc) w (fun o w' => o = .unit ∧ Rel P σ w' ∧ w'.slots = w.slots ∧
      ∀ p, w'.mgr.used p = true → Prot (extW w') [] w'.mgr p) := by
  obtain ⟨_, s', e, rm, _, _, _, hp⟩ := forceGc_spec R.good.inv
  simp only [exec, forceGcD]
  refine Ok.bindEq (a := ()) (s' := { w with mgr := s' })
    (by simp only [onMgr]; rw [show forceGc P.c w.mgr = _ from e]) (Ok.pure ⟨rfl, ?_, rfl, ?_⟩)
  · exact R.silent (rm.good R.good) rm.mark rm.kind rm.l2i
  · exact hp R.good.ord rfl

theorem clearCache_sim (R : Rel P σ w) :
    Ok (exec P.c .clearCache) w (fun o w' => o = .unit ∧ Rel P { σ with cacheOK := true } w') := by
  refine ⟨_, _, rfl, rfl, ?_⟩
  refine
    { good := ?_, len := R.len, has := R.has, empty := R.empty, order := R.order, clean := R.clean }
  have g := R.good
  have hi : Inv P.c (extW w) [] { w.mgr with cache := w.mgr.cache.clear } :=
    g.inv.of_eq rfl rfl rfl rfl rfl rfl rfl rfl rfl rfl rfl rfl rfl rfl
  exact
    { cfg := g.cfg, inv := hi, ord := g.ord, pool := ⟨g.pool.extra, g.pool.den, g.pool.thr⟩
      auto := g.auto, defer := g.defer, pool0 := g.pool0
      canon := fun h => (g.canon h).sub rfl (fun _ h => h)
      cache := fun _ i e he => by cases he }

theorem forceReorder_sim (R : Rel P σ w) :
    Ok (exec P.c .forceReorder) w (fun o w' => (∃ l, o = .nats l ∧ l.Perm (List.range P.c.n)) ∧
      Rel P { σ with order := o.toNats, canon := false, cacheOK := false } w' ∧
      w'.mgr.autoReorder = w.mgr.autoReorder ∧ w'.mgr.deferred = false) := by
  have g := R.good
  obtain ⟨_, s', e, h, hdf, sw⟩ := siftVariables_spec (c := P.c) ⟨g.inv, g.ord, g.pool⟩ g.cfg.dom_pos
  simp only [exec, forceReorder]
  refine Ok.bindEq (a := ()) (s' := { w with mgr := s' }) (by simp [onMgr, e]) ?_
  refine Ok.bindEq (a := levelVars P.c s') (s' := { w with mgr := s' })
    (by simp [onMgr, getOrder, levelVars, bind_run]) ?_
  refine Ok.pure ⟨⟨_, rfl, levelVars_perm h.inv⟩, ?_, sw.auto, hdf⟩
  refine
    { good := ?_, len := R.len, has := ?_, empty := R.empty, order := rfl, clean := ?_ }
  · exact
      { cfg := g.cfg, inv := h.inv, ord := h.ord, pool := h.pool
        auto := fun h => sw.auto.trans (g.auto h), defer := fun _ => hdf, pool0 := g.pool0.trans sw.poolEnd
        canon := fun e => by cases e
        cache := fun e => by cases e }
  · intro a f hf
    obtain ⟨p, h1, h2⟩ := R.has a f hf
    exact ⟨p, h1, fun x hx => sw.ev p (extL_pos h1) x hx _ (h2 x hx)⟩
  · intro hc p
    by_contra hm
    have := sw.mark p (by simpa using hm)
    rw [show _ = false from R.clean hc p] at this
    cases this

theorem setGcRatio_sim (R : Rel P σ w) {num den : Nat} (h0 : 0 < den) (h1 : num ≤ den)
    (h2 : den ≤ num * P.pool) :
    Ok (exec P.c (.setGcRatio num den)) w (fun o w' => o = .unit ∧ Rel P σ w') := by
  have g := R.good
  have hi : Inv P.c (extW w) [] { w.mgr with gcRatio := (num, den) } :=
    g.inv.of_eq rfl rfl rfl rfl rfl rfl rfl rfl rfl rfl rfl rfl rfl rfl
  refine Ok.bindEq (a := ()) (s' := { w with mgr := { w.mgr with gcRatio := (num, den) } })
    (by simp [onMgr, setGcRatio, h1]) (Ok.pure ⟨rfl, ?_⟩)
  refine R.silent ?_ rfl rfl rfl
  exact
    { cfg := g.cfg, inv := hi, ord := g.ord
      pool := ⟨g.pool.extra, h0, h2.trans (Nat.mul_le_mul_left _ g.pool0)⟩
      auto := g.auto, defer := g.defer, pool0 := g.pool0
      canon := fun h => (g.canon h).sub rfl (fun _ h => h)
      cache := fun h i e he =>
        have ok := g.cache h i e he
        ok.same rfl rfl ⟨ok.lhs, ok.rhs, ok.res⟩ }

theorem setCacheRatio_sim (R : Rel P σ w) {num den : Nat} (h0 : 0 < num) :
    Ok (exec P.c (.setCacheRatio num den)) w (fun o w' => o = .unit ∧ Rel P σ w') := by
  have g := R.good
  have hi : Inv P.c (extW w) [] { w.mgr with cacheRatio := (num, den) } :=
    g.inv.of_eq rfl rfl rfl rfl rfl rfl rfl rfl rfl rfl rfl rfl rfl rfl
  refine Ok.bindEq (a := ()) (s' := { w with mgr := { w.mgr with cacheRatio := (num, den) } })
    (by simp [onMgr, setCacheRatio, Nat.pos_iff_ne_zero.1 h0]) (Ok.pure ⟨rfl, ?_⟩)
  refine R.silent ?_ rfl rfl rfl
  exact
    { cfg := g.cfg, inv := hi, ord := g.ord
      pool := ⟨g.pool.extra, g.pool.den, g.pool.thr⟩
      auto := g.auto, defer := g.defer, pool0 := g.pool0
      canon := fun h => (g.canon h).sub rfl (fun _ h => h)
      cache := fun h i e he =>
        have ok := g.cache h i e he
        ok.same rfl rfl ⟨ok.lhs, ok.rhs, ok.res⟩ }

theorem setAutoReorder_sim (R : Rel P σ w) {b : Bool} :
    Ok (exec P.c (.setAutoReorder b)) w (fun o w' => o = .unit ∧ Rel P { σ with auto := σ.auto || b } w') := by
  have g := R.good
  have hi : Inv P.c (extW w) [] { w.mgr with autoReorder := b } :=
    g.inv.of_eq rfl rfl rfl rfl rfl rfl rfl rfl rfl rfl rfl rfl rfl rfl
  refine Ok.bindEq (a := ()) (s' := { w with mgr := { w.mgr with autoReorder := b } })
    (by simp [onMgr, setAutoReorder]) (Ok.pure ⟨rfl, ?_⟩)
  refine
    { good := ?_, len := R.len, has := R.has, empty := R.empty, order := R.order, clean := R.clean }
  have off : (σ.auto || b) = false → σ.auto = false ∧ b = false := by simp
  exact
    { cfg := g.cfg, inv := hi, ord := g.ord
      pool := ⟨g.pool.extra, g.pool.den, g.pool.thr⟩
      auto := fun h => (off h).2, defer := fun h => g.defer (off h).1, pool0 := g.pool0
      canon := fun h => (g.canon h).sub rfl (fun _ h => h)
      cache := fun h i e he =>
        have ok := g.cache h i e he
        ok.same rfl rfl ⟨ok.lhs, ok.rhs, ok.res⟩ }

/-! ### Construction -/

theorem invertOrder_get : ∀ (l : List Nat) (k : Nat) (f : Nat → Nat), l.Nodup →
    (∀ j i, l[j]? = some i → invertOrder l k f i = k + j) ∧ (∀ i, i ∉ l → invertOrder l k f i = f i) := by
  intro l
  induction l with
  | nil => intro k f _; simp [invertOrder]
  | cons a l ih =>
      intro k f hn
      obtain ⟨ha, hn⟩ := List.nodup_cons.1 hn
      obtain ⟨h1, h2⟩ := ih (k + 1) (upd f a k) hn
      refine ⟨?_, ?_⟩
      · intro j i hj
        cases j with
        | zero =>
            simp only [List.getElem?_cons_zero, Option.some.injEq] at hj
            subst hj
            simp only [invertOrder]
            rw [h2 a ha, upd_same]; rfl
        | succ j =>
            simp only [List.getElem?_cons_succ] at hj
            simp only [invertOrder]
            rw [h1 j i hj]; omega
      · intro i hi
        simp only [List.mem_cons, not_or] at hi
        simp only [invertOrder]
        rw [h2 i hi.2, upd_other _ _ hi.1]

theorem checkDistinct_of_nodup {l : List Nat} (h : l.Nodup) : checkDistinct l = true := by
  induction l with
  | nil => rfl
  | cons a l ih =>
      obtain ⟨ha, hn⟩ := List.nodup_cons.1 h
      simp [checkDistinct, ih hn, ha]

theorem construct_sim (hP : P.OK) :
    ∃ m, construct P.c P.pool P.order = .ok m ∧ Rel P (SState.init P) ⟨m, []⟩ := by
  have hlen : P.order.length = P.c.n := by simpa using hP.perm.length_eq
  have hnd : P.order.Nodup := hP.perm.nodup_iff.2 List.nodup_range
  have hmem : ∀ i, i ∈ P.order ↔ i < P.c.n := fun i => by rw [hP.perm.mem_iff]; simp
  have hany : (P.order.any fun i => decide (P.c.n ≤ i)) = false := by
    rw [List.any_eq_false]
    intro i hi
    have := (hmem i).1 hi
    simp; omega
  have hget : ∀ l, l < P.c.n → P.order[l]? = some (P.order.getD l 0) := by
    intro l hl
    rw [List.getD_eq_getElem?_getD, List.getElem?_eq_getElem (by omega)]
    rfl
  refine ⟨Mgr.init P.c P.pool P.order, ?_, ?_⟩
  · unfold construct
    rw [if_neg (by simp [hlen, checkDistinct_of_nodup hnd]), hany, if_neg (by simp),
      if_neg (by have := hP.vars; omega), if_neg (by have := hP.vars; omega)]
  have hinv := invertOrder_get P.order 0 (fun _ => 0) hnd
  have hord : OrderOK P.c (Mgr.init P.c P.pool P.order) := by
    have h1 : ∀ l, l < P.c.n → (Mgr.init P.c P.pool P.order).idx2lvl
        ((Mgr.init P.c P.pool P.order).lvl2idx l) = l := by
      intro l hl
      have := hinv.1 l _ (hget l hl)
      rw [Nat.zero_add] at this
      exact this
    refine ⟨?_, ?_, h1, ?_⟩
    · intro i hi
      obtain ⟨j, hj⟩ := List.mem_iff_getElem?.1 ((hmem i).2 hi)
      have := hinv.1 j i hj
      have hjl := lt_of_getElem?_some hj
      simp only [Mgr.init]; omega
    · intro l hl
      exact (hmem _).1 (List.mem_of_getElem? (hget l hl))
    · intro i hi
      obtain ⟨j, hj⟩ := List.mem_iff_getElem?.1 ((hmem i).2 hi)
      have := hinv.1 j i hj
      have hjl := lt_of_getElem?_some hj
      simp only [Mgr.init]
      rw [this, Nat.zero_add, List.getD_eq_getElem?_getD, hj]; rfl
  have hinvM : Inv P.c (extW ⟨Mgr.init P.c P.pool P.order, []⟩) [] (Mgr.init P.c P.pool P.order) :=
    { tabWF := fun i _ => Table.make_WF _ _
      tabKind := by
        intro i _ p hp
        simp [Mgr.init, Table.make_nodes] at hp
      termKind := by simp [Mgr.init]
      specKind := by simp [Mgr.init]
      tmpInner := by simp
      tmpDisj := by simp
      placed := by
        intro p
        simp [Mgr.init, Mgr.Placed, Table.make_nodes]
      sons := by simp [Mgr.init]
      refs := by simp [Mgr.init]
      extUsed := by
        intro p hp
        simp [extW, extL] at hp
      markUsed := by simp [Mgr.init]
      pool := ⟨by simp [Mgr.init], by simp [Mgr.init], by simp [Mgr.init], by simp [Mgr.init],
        by simp [Mgr.init], by simp [Mgr.init], by simp [Mgr.init]⟩
      order := hord
      mem := ⟨by simp [Mgr.init], ⟨by simp [Mgr.init], by simp [Mgr.init, IsInner],
        by simp [Mgr.init, IsInner], by simp [Mgr.init]⟩, Chain.main, by simp [Mgr.init]⟩
      heap := HeapOK.init _
      link := ⟨fun _ _ _ _ => rfl, rfl, nofun⟩ }
  refine
    { good :=
        { cfg := hP.cfg, inv := hinvM
          ord := by intro p i ss q hp; simp [Mgr.init] at hp
          pool := ⟨hP.extra, by simp [Mgr.init], by have := hP.pool; simp [Mgr.init]; omega⟩
          auto := fun _ => rfl, defer := fun _ => rfl, pool0 := Nat.le_refl _
          canon := fun _ => ⟨by simp [Mgr.init], by simp [Mgr.init]⟩
          cache := fun _ i e he => by cases he }
      len := rfl
      has := by intro a f h; simp [SState.Has, SState.init] at h
      empty := by intro a h; simp [SState.init] at h
      order := ?_
      clean := fun _ _ => rfl }
  apply List.ext_getElem?
  intro k
  unfold levelVars SState.init Mgr.init
  by_cases hk : k < P.c.n
  · rw [hget k hk]; simp [hk]
  · rw [List.getElem?_eq_none (by simp; omega), List.getElem?_eq_none (by dsimp only; omega)]

/-! ### All calls -/

theorem Rel.used (R : Rel P σ w) {a : Nat} {p : Ptr} (h : w.slots[a]? = some (some p)) :
    w.mgr.used p = true := R.good.inv.extUsed p (extL_pos h)

theorem Rel.cleanBelow (R : Rel P σ w) (hc : σ.clean = true) (p : Ptr) : CleanBelow w.mgr p :=
  fun q _ => R.clean hc q

/-! ### Reliability analysis -/

/-- A call that only writes data members. -/
theorem data_ok (R : Rel P σ w) {α : Type} {m : M α} {g : α → Out} {Q : α → Prop}
    (h : Ok m w.mgr (fun r s' => Q r ∧ DSt w.mgr s')) :
    Ok (do let r ← onMgr m; pure (g r)) w (fun o w' => (∃ r, o = g r ∧ Q r) ∧ Rel P σ w') := by
  obtain ⟨r, s', e, hq, D⟩ := h
  refine Ok.bindEq (a := r) (s' := { w with mgr := s' }) (by simp only [onMgr]; rw [e]) ?_
  exact Ok.pure ⟨⟨r, rfl, hq⟩, R.silent (D.good R.good) D.mark D.kind D.l2i⟩

/-- Handles stay, nodes that no handle reaches may change. -/
theorem Rel.keeps (R : Rel P σ w) {s' : Mgr} (g : Good (envOf P σ) (extW w) s')
    (k : KeepsH (extW w) w.mgr s') (m : ∀ p, s'.mark p = true → w.mgr.mark p = true) :
    Rel P σ { w with mgr := s' } where
  good := g
  len := R.len
  has a f hf := (R.has a f hf).keeps k
  empty := R.empty
  order := by
    rw [← R.order]
    unfold levelVars
    dsimp only
    rw [k.l2i]
  clean hc p := by
    have := R.clean hc p
    cases h : s'.mark p with
    | false => rfl
    | true => rw [m p h] at this; cases this

theorem mem_cutChanges {c : Cfg} {vc : VarChange} :
    vc ∈ cutChanges c ↔ vc.index < c.n ∧ vc.from + 1 < c.dom vc.index ∧ vc.to = vc.from + 1 := by
  obtain ⟨i, a, b⟩ := vc
  simp only [cutChanges, List.mem_flatMap, List.mem_range, List.mem_map, VarChange.mk.injEq]
  constructor
  · rintro ⟨j, hj, k, hk, rfl, rfl, rfl⟩
    exact ⟨hj, by omega, rfl⟩
  · rintro ⟨h1, h2, rfl⟩
    exact ⟨i, h1, a, by omega, rfl, rfl, rfl⟩

theorem mem_pathChanges {c : Cfg} {vc : VarChange} :
    vc ∈ pathChanges c ↔ vc.index < c.n ∧ vc.to + 1 < c.dom vc.index ∧ vc.from = vc.to + 1 := by
  obtain ⟨i, a, b⟩ := vc
  simp only [pathChanges, List.mem_flatMap, List.mem_range, List.mem_map, VarChange.mk.injEq]
  constructor
  · rintro ⟨j, hj, k, hk, rfl, rfl, rfl⟩
    exact ⟨hj, by omega, rfl⟩
  · rintro ⟨h1, h2, rfl⟩
    exact ⟨i, h1, b, by omega, rfl, rfl, rfl⟩

theorem critical_cut {c : Cfg} {f : Asg → Int} {s : Int} {x : Asg} :
    Critical f (Dpld.type3Increase s) (cutChanges c) x ↔ MinCut c.n c.dom f s x := by
  unfold Critical MinCut Dpld.type3Increase
  simp only [Bool.and_eq_true, decide_eq_true_eq]
  constructor
  · rintro ⟨h1, vc, hvc, hx⟩
    obtain ⟨h2, h3, h4⟩ := mem_cutChanges.1 hvc
    refine ⟨⟨vc.index, h2, by omega⟩, (h1 vc hvc hx).1, ?_⟩
    intro i hi hxi
    exact (h1 ⟨i, x i, x i + 1⟩ (mem_cutChanges.2 ⟨hi, hxi, rfl⟩) rfl).2
  · rintro ⟨⟨i, hi, hxi⟩, h2, h3⟩
    refine ⟨?_, ⟨i, x i, x i + 1⟩, mem_cutChanges.2 ⟨hi, hxi, rfl⟩, rfl⟩
    intro vc hvc hx
    obtain ⟨h4, h5, h6⟩ := mem_cutChanges.1 hvc
    refine ⟨h2, ?_⟩
    have := h3 vc.index h4 (by omega)
    rw [h6, ← hx]
    exact this

theorem critical_path {c : Cfg} {f : Asg → Int} {s : Int} {x : Asg}
    (hx0 : InDomain c.n c.dom x) :
    Critical f (Dpld.type3Decrease s) (pathChanges c) x ↔ MinPath c.n f s x := by
  unfold Critical MinPath Dpld.type3Decrease
  simp only [Bool.and_eq_true, decide_eq_true_eq]
  constructor
  · rintro ⟨h1, vc, hvc, hx⟩
    obtain ⟨h2, h3, h4⟩ := mem_pathChanges.1 hvc
    refine ⟨⟨vc.index, h2, by omega⟩, (h1 vc hvc hx).1, ?_⟩
    intro i hi hxi
    have := hx0 i hi
    exact (h1 ⟨i, x i, x i - 1⟩ (mem_pathChanges.2 ⟨hi, by dsimp only; omega, by dsimp only; omega⟩)
      rfl).2
  · rintro ⟨⟨i, hi, hxi⟩, h2, h3⟩
    have := hx0 i hi
    refine ⟨?_, ⟨i, x i, x i - 1⟩,
      mem_pathChanges.2 ⟨hi, by dsimp only; omega, by dsimp only; omega⟩, rfl⟩
    intro vc hvc hx
    obtain ⟨h4, h5, h6⟩ := mem_pathChanges.1 hvc
    refine ⟨h2, ?_⟩
    have := h3 vc.index h4 (by omega)
    rw [show vc.to = x vc.index - 1 by omega]
    exact this

theorem vectors_ok (R : Rel P σ w) (hau : σ.auto = false) (hv : VectorsOK P σ) {a : Nat} {f : Asg → Int} (hf : σ.Has a f)
    {ch : Int → Int → Bool} {vcs : List VarChange} {φ : Asg → Prop} [DecidablePred φ] {p : Ptr}
    (hp : w.slots[a]? = some (some p)) (hne : vcs ≠ [])
    (hvc : ∀ vc ∈ vcs, vc.index < P.c.n ∧ vc.from < P.c.dom vc.index ∧ vc.to < P.c.dom vc.index)
    (hφ : ∀ x, InDomain P.c.n P.c.dom x → (Critical f ch vcs x ↔ φ x)) :
    Ok (do let r ← onMgr (vectorsG P.c ch p vcs); pure (Out.asgs r)) w (fun o w' =>
      o = Out.asgs (((assignments P.c.dom σ.order).filter fun x => φ x).map (toList P.c.n)) ∧
      Rel P σ w') := by
  obtain ⟨hca, hΓ, h1, hU, _⟩ := hv
  obtain ⟨p', hp', hd⟩ := R.has a f hf
  rw [hp] at hp'
  cases hp'
  obtain ⟨r, s', e, g', k', m', hr⟩ := vectorsG_good (E := envOf P σ) hau R.good (extL_pos hp) hd
    (ch := ch) hne hvc hca hΓ h1 hU
  refine Ok.bindEq (a := r) (s' := { w with mgr := s' })
    (by simp only [onMgr]; rw [show vectorsG P.c ch p vcs w.mgr = _ from e]) ?_
  refine Ok.pure ⟨?_, R.keeps g' k' m'⟩
  rw [hr]
  have e : levelVars (envOf P σ).c w.mgr = σ.order := R.order
  rw [e]
  congr 2
  apply List.filter_congr
  intro x hx
  have hperm : σ.order.Perm (List.range P.c.n) := by
    rw [← R.order]; exact levelVars_perm R.good.inv
  have hx : InDomain P.c.n P.c.dom x := fun i hi =>
    ((mem_assignments (hperm.symm.nodup List.nodup_range)).1 hx).1 i
      (hperm.mem_iff.2 (List.mem_range.2 hi))
  have := hφ x hx
  simp [this]

theorem cutChanges_ne {c : Cfg} (h : ∃ i, i < c.n ∧ 2 ≤ c.dom i) :
    cutChanges c ≠ [] ∧ pathChanges c ≠ [] := by
  obtain ⟨i, h1, h2⟩ := h
  refine ⟨fun e => ?_, fun e => ?_⟩
  · have := (mem_cutChanges (vc := ⟨i, 0, 1⟩)).2 ⟨h1, by dsimp only; omega, rfl⟩
    rw [e] at this
    cases this
  · have := (mem_pathChanges (vc := ⟨i, 1, 0⟩)).2 ⟨h1, by dsimp only; omega, rfl⟩
    rw [e] at this
    cases this

theorem nary_val {c : Cfg} {op : BinOp} {fs : List (Asg → Int)}
    (hop : NOpOK c op.nary (fs.map (Range c))) {x : Asg} (hx : Valid c x) :
    op.nary (fs.map (fun f => f x)) = .ok (naryVal op (fs.map (fun f => f x))) := by
  obtain ⟨v, hv, _⟩ := hop.total (fs.map (fun f => f x)) (by
    rw [List.forall₂_map_left_iff, List.forall₂_map_right_iff]
    exact List.forall₂_same.2 (fun f _ => Or.inl ⟨x, hx, rfl⟩))
  unfold naryVal
  rw [hv]

/-- The world after a call: queries change nothing. -/
def After (P : Setup) (σ : SState) (k : Call) (w : World) (o : Out) (w' : World) : Prop :=
  match k.isQuery with
  | true => w' = w
  | false => Rel P (next P.c σ k o) w'

theorem sim_after (R : Rel P σ w) {k : Call} (hk : Adm P σ k)
    (ha : k.defers = true → σ.auto = false := by no_defer) :
    Ok (exec P.c k) w (fun o w' => OutOK P σ o k ∧ After P σ k w o w') := by
  have g := R.good
  have hi := g.inv
  have ho := g.ord
  have hcfg : CfgOK P.c := g.cfg
  unfold After
  cases k with
  | constant v => exact making_ok R ((constant_good g hk).mono fun _ _ h => h.res)
  | variableD i => exact making_ok R ((variableD_good g hk).mono fun _ _ h => h.res)
  | variableNot i => exact making_ok R ((variableNot_good g hk.1 hk.2).mono fun _ _ h => h.res)
  | apply op a b =>
      obtain ⟨hc, hΓ, f, h, hf, hh, hop⟩ := hk
      obtain ⟨p, hp, hdp⟩ := R.has a f hf
      obtain ⟨q, hq, hdq⟩ := R.has b h hh
      simp only [exec, OutOK, next, made, hf.fn, hh.fn]
      refine Ok.bindEq (rootOf_ok hp) (Ok.bindEq (rootOf_ok hq) ?_)
      exact making_ok R ((apply_good (E := envOf P σ) (ha rfl) hc hΓ g (handle_prot (extL_pos hp))
        (handle_prot (extL_pos hq)) hdp hdq hop).mono fun _ _ h => h.res)
  | applyN op as =>
      obtain ⟨hne, fs, hfs, hop⟩ := hk
      obtain ⟨ps, e, hpos, hh⟩ := roots_ok R hfs
      simp only [exec, OutOK, next, made]
      refine Ok.bindEq e ?_
      have hps : ps ≠ [] := by
        rintro rfl
        have h1 := hh.length_eq
        have h2 := hfs.length_eq
        simp at h1
        rw [← h1] at h2
        exact hne (List.length_eq_zero_iff.1 h2)
      have e2 : ∀ x, (as.map fun a => σ.fn a x) = fs.map fun f => f x := by
        intro x
        rw [← hfs.fn, List.map_map]; rfl
      refine making_ok R (applyN_good (E := envOf P σ) (ha rfl) g hps hpos hh hop ?_)
      intro x hx
      rw [e2]
      exact nary_val hop hx
  | leftFold op as =>
      obtain ⟨hc, hΓ, f, fs, hfs, hop⟩ := hk
      obtain ⟨ps, e, hpos, hh⟩ := roots_ok R hfs
      simp only [exec, OutOK, next, made, hfs.fn]
      refine Ok.bindEq e ?_
      cases hh with
      | cons h1 h2 =>
          exact making_ok R (leftFold_good (E := envOf P σ) (ha rfl) hc hΓ g hpos (.cons h1 h2) hop)
  | treeFold op as =>
      obtain ⟨hc, hΓ, hne, fs, hfs, hop⟩ := hk
      obtain ⟨ps, e, hpos, hh⟩ := roots_ok R hfs
      simp only [exec, OutOK, next, made, hfs.fn]
      refine Ok.bindEq e ?_
      have hfne : fs ≠ [] := by
        rintro rfl
        cases hfs
        exact hne rfl
      exact making_ok R (treeFoldCopies_good (E := envOf P σ) (ha rfl) hc hΓ hfne hop g hpos hh)
  | transform t a =>
      obtain ⟨f, hf, ht⟩ := hk
      obtain ⟨p, hp, hd⟩ := R.has a f hf
      simp only [exec, OutOK, next, made, hf.fn]
      refine Ok.bindEq (rootOf_ok hp) ?_
      exact making_ok R ((transform_good (ha rfl) g (handle_prot (extL_pos hp)) hd ht).mono
        fun _ _ h => h.res)
  | negate a =>
      obtain ⟨f, hf, ht⟩ := hk
      obtain ⟨p, hp, hd⟩ := R.has a f hf
      simp only [exec, OutOK, next, made, hf.fn]
      refine Ok.bindEq (rootOf_ok hp) ?_
      exact making_ok R ((transform_good (t := fun v => 1 - v) (ha rfl) g (handle_prot (extL_pos hp)) hd
        ht).mono fun _ _ h => h.res)
  | reduce a =>
      obtain ⟨f, hf, ht⟩ := hk
      obtain ⟨p, hp, hd⟩ := R.has a f hf
      simp only [exec, OutOK, next, made, hf.fn]
      refine Ok.bindEq (rootOf_ok hp) ?_
      exact making_ok R ((transform_good (t := fun v => v) (ha rfl) g (handle_prot (extL_pos hp)) hd
        ht).mono fun _ _ h => h.res)
  | cofactor a i v =>
      obtain ⟨⟨f, hf⟩, hv⟩ := hk
      obtain ⟨p, hp, hd⟩ := R.has a f hf
      simp only [exec, OutOK, next, made, hf.fn]
      refine Ok.bindEq (rootOf_ok hp) ?_
      exact making_ok R ((getCofactor_good (ha rfl) g (handle_prot (extL_pos hp)) hd hv).mono
        fun _ _ h => h.res)
  | cofactors a vars =>
      obtain ⟨⟨f, hf⟩, hv⟩ := hk
      obtain ⟨p, hp, hd⟩ := R.has a f hf
      simp only [exec, OutOK, next, made, hf.fn]
      refine Ok.bindEq (rootOf_ok hp) ?_
      exact making_ok R ((getCofactors_good (ha rfl) g (handle_prot (extL_pos hp)) hd hv).mono
        fun _ _ h => h.res)
  | fromVector vs =>
      obtain ⟨h1, h2, h3⟩ := hk
      have := fromVector_good (E := envOf P σ) g h1 h2 h3
      have e : vecFun P.c w.mgr vs = fun x => vs.getD (position P.c.dom σ.order x) 0 := by
        unfold vecFun
        rw [R.order]
      rw [show vecFun (envOf P σ).c w.mgr vs = _ from e] at this
      exact making_ok R this
  | fromExpr e =>
      refine making_core R false ((fromExpressionTree_good (ha rfl) g hk).mono ?_)
      intro _ _ h
      exact ⟨h.1, by simp⟩
  | fromPla file tree => exact fromPla_sim R hk (ha rfl)
  | copy a =>
      obtain ⟨f, hf⟩ := hk
      obtain ⟨p, hp, hd⟩ := R.has a f hf
      simp only [exec, OutOK, next, made, hf.fn]
      refine Ok.bindEq (rootOf_ok hp) ?_
      exact making_ok R ((copy_diagram g (handle_prot (extL_pos hp)) hd).mono fun _ _ h => h.res)
  | assign a b =>
      obtain ⟨ha, f, hf⟩ := hk
      simp only [OutOK, next, hf.fn]
      exact assign_sim R ha hf
  | move a b => exact move_sim R hk.1 hk.2
  | drop a => exact drop_sim R hk
  | swap a b => exact swap_sim R hk.1 hk.2
  | evaluate a x =>
      obtain ⟨⟨f, hf⟩, hx⟩ := hk
      obtain ⟨p, hp, hd⟩ := R.has a f hf
      simp only [exec, OutOK, next, made, hf.fn]
      refine Ok.bindEq (rootOf_ok hp) (query_ok ?_)
      exact Ok.of_eq (evaluate_ok hi ho (R.used hp) (hd x hx)) ⟨rfl, rfl, rfl⟩
  | satisfyCount v a =>
      obtain ⟨hc, hfit, ⟨f, hf⟩, hv⟩ := hk
      obtain ⟨p, hp, hd⟩ := R.has a f hf
      simp only [exec, OutOK, next, made, hf.fn]
      refine Ok.bindEq (rootOf_ok hp) (query_ok ?_)
      refine (satisfyCount_ok g (R.used hp) (R.cleanBelow hc p) hfit hd hv).mono ?_
      rintro r s' ⟨rfl, h⟩
      exact ⟨h, rfl, rfl⟩
  | satisfyOne v a =>
      obtain ⟨⟨f, hf⟩, hv⟩ := hk
      obtain ⟨p, hp, hd⟩ := R.has a f hf
      simp only [exec, OutOK, next, made, hf.fn]
      refine Ok.bindEq (rootOf_ok hp) (query_ok ?_)
      obtain ⟨r, s', e, h, h2⟩ := satisfyOne_ok hi ho hcfg (R.used hp) hd hv
      refine Ok.of_eq e ⟨h, ⟨r, rfl, h2, fun hcan => ?_⟩, rfl⟩
      have e' := satisfyOne_search hi ho hcfg (g.canon hcan) (R.used hp) hd hv
      rw [show levelVars (envOf P σ).c w.mgr = σ.order from R.order] at e'
      rw [e'] at e
      cases e
      rfl
  | satisfyAll v a =>
      obtain ⟨⟨f, hf⟩, hv⟩ := hk
      obtain ⟨p, hp, hd⟩ := R.has a f hf
      simp only [exec, OutOK, next, made, hf.fn]
      refine Ok.bindEq (rootOf_ok hp) (query_ok ?_)
      refine (satisfyAll_ok hi ho hcfg (R.used hp) hd hv).mono ?_
      rintro r s' ⟨h, h2⟩
      refine ⟨h, ?_, rfl⟩
      rw [h2, ← R.order]; rfl
  | toVector a =>
      obtain ⟨⟨f, hf⟩, hv⟩ := hk
      obtain ⟨p, hp, hd⟩ := R.has a f hf
      simp only [exec, OutOK, next, made, hf.fn]
      refine Ok.bindEq (rootOf_ok hp) (query_ok ?_)
      refine Ok.of_eq (toVector_ok hi ho hcfg hv (R.used hp) hd) ⟨rfl, ?_, rfl⟩
      rw [← R.order]; rfl
  | dependencySet a =>
      obtain ⟨hc, f, hf⟩ := hk
      obtain ⟨p, hp, hd⟩ := R.has a f hf
      simp only [exec, OutOK, next, made, hf.fn]
      refine Ok.bindEq (rootOf_ok hp) (query_ok ?_)
      refine (dependencySet_ok hi ho (R.used hp) (R.cleanBelow hc p)).mono ?_
      rintro r s' ⟨h, h2, h3⟩
      refine ⟨h, ⟨r, rfl, h2, ?_, ?_⟩, rfl⟩
      · intro i _ hdep
        exact (h3 i).2 (depends_tested hd hdep)
      · intro hcan i hir
        have ht := (h3 i).1 hir
        have hil : i < P.c.n := by
          obtain ⟨q, ss, hr, hkq⟩ := ht
          exact (hi.sons q i ss (hr.used hi (R.used hp)) hkq).1
        exact ⟨hil, (tested_iff hi ho hcfg (g.canon hcan) (R.used hp) hd hil).1 ht⟩
  | nodeCountOf a =>
      obtain ⟨hc, f, hf⟩ := hk
      obtain ⟨p, hp, hd⟩ := R.has a f hf
      simp only [exec, OutOK, next, made, hf.fn]
      refine Ok.bindEq (rootOf_ok hp) (query_ok ?_)
      refine (nodeCountOf_ok hi ho (R.used hp) (R.cleanBelow hc p)).mono ?_
      rintro r s' ⟨h, vs, hnd, hvs, rfl⟩
      have h1 : ∀ q ∈ vs, ∃ r f', w.mgr.used r = true ∧ Reach w.mgr.kind r q ∧ Den P.c w.mgr r f' ∧ f' = f :=
        fun q hq => ⟨p, f, R.used hp, (hvs q).1 hq, hd, rfl⟩
      have h2 : ∀ f', f' = f → ∃ r, w.mgr.used r = true ∧ Den P.c w.mgr r f' ∧
          ∀ q, Reach w.mgr.kind r q → q ∈ vs :=
        fun f' hf' => ⟨p, R.used hp, by rw [hf']; exact hd, fun q hq => (hvs q).2 hq⟩
      have e : levelVars (envOf P σ).c w.mgr = σ.order := R.order
      refine ⟨h, ⟨_, rfl, ?_, fun hcan => ?_⟩, rfl⟩
      · have := count_subs_le (F := fun g => g = f) hi ho hcfg h1 h2
        rw [e] at this
        simp only [exists_eq_left] at this
        exact this
      · have := count_subs (F := fun g => g = f) hi ho hcfg (g.canon hcan) hnd h1 h2
        rw [e] at this
        simp only [exists_eq_left] at this
        exact this
  | nodeCount => exact ⟨_, _, rfl, ⟨_, rfl⟩, rfl⟩
  | getOrder => exact ⟨_, _, rfl, congrArg Out.nats R.order, rfl⟩
  | equals a b =>
      obtain ⟨⟨f, hf⟩, h, hh⟩ := hk
      obtain ⟨p, hp, hdp⟩ := R.has a f hf
      obtain ⟨q, hq, hdq⟩ := R.has b h hh
      simp only [exec, OutOK, next, made, hf.fn, hh.fn]
      refine Ok.bindEq (ptrOf_ok hp) (Ok.bindEq (ptrOf_ok hq) (Ok.pure ⟨⟨_, rfl, ?_, ?_⟩, rfl⟩))
      · intro e x hx
        have e : p = q := Option.some.inj (beq_iff_eq.1 e)
        subst e
        exact (hdp x hx).det (hdq x hx)
      · intro hcan hall
        refine beq_iff_eq.2 (congrArg some (canonical hi ho (g.canon hcan) hcfg (R.used hp) (R.used hq) ?_))
        intro x v hx hv
        have e1 := hv.det (hdp x hx)
        rw [e1, hall x hx]
        exact hdq x hx
  | hashOf a =>
      obtain ⟨f, hf⟩ := hk
      obtain ⟨p, hp, -⟩ := R.has a f hf
      simp only [exec, OutOK, next, made]
      exact Ok.bindEq (ptrOf_ok hp) (Ok.pure ⟨⟨_, rfl⟩, rfl⟩)
  | forceGc => exact (forceGc_sim R).mono fun _ _ h => ⟨h.1, h.2.1⟩
  | clearCache => exact clearCache_sim R
  | forceReorder => exact (forceReorder_sim R).mono fun _ _ h => ⟨h.1, h.2.1⟩
  | setGcRatio num den => exact setGcRatio_sim R hk.1 hk.2.1 hk.2.2
  | setCacheRatio num den => exact setCacheRatio_sim R hk
  | setAutoReorder b => exact setAutoReorder_sim R
  | calculateProbability v pr a =>
      obtain ⟨hc, h0, hs, f, hf, hu⟩ := hk
      obtain ⟨p, hp, hd⟩ := R.has a f hf
      simp only [exec, OutOK, next, made, hf.fn]
      refine Ok.bindEq (rootOf_ok hp) ?_
      refine (data_ok R (ntpsPost_ok g (R.used hp) (R.cleanBelow hc p) hd hs hu
        (selected := [v]) (by simpa using h0))).mono ?_
      rintro o w' ⟨⟨r, rfl, rfl⟩, R'⟩
      exact ⟨by simp only [List.mem_singleton]; rfl, R'⟩
  | calculateProbabilities pr a =>
      obtain ⟨hc, hs, f, hf⟩ := hk
      obtain ⟨p, hp, hd⟩ := R.has a f hf
      simp only [exec, OutOK, next, made]
      refine Ok.bindEq (rootOf_ok hp) ?_
      refine (data_ok R (g := fun _ => .unit) (Q := fun _ => True)
        ((calculateProbabilities_ok g (R.used hp) (R.cleanBelow hc p) hd hs).mono
          fun _ _ h => ⟨trivial, h.1⟩)).mono ?_
      rintro o w' ⟨⟨r, rfl, _⟩, R'⟩
      exact ⟨rfl, R'⟩
  | calculateAvailability v pr a =>
      obtain ⟨hc, hs, f, hf, hu⟩ := hk
      obtain ⟨p, hp, hd⟩ := R.has a f hf
      simp only [exec, OutOK, next, made, hf.fn]
      refine Ok.bindEq (rootOf_ok hp) ?_
      refine (data_ok R (ntpsValues_ok g (R.used hp) (R.cleanBelow hc p) hd hs hu
        (fun u => decide (u ≥ v)))).mono ?_
      rintro o w' ⟨⟨r, rfl, rfl⟩, R'⟩
      exact ⟨rfl, R'⟩
  | calculateUnavailability v pr a =>
      obtain ⟨hc, hs, f, hf, hu⟩ := hk
      obtain ⟨p, hp, hd⟩ := R.has a f hf
      simp only [exec, OutOK, next, made, hf.fn]
      refine Ok.bindEq (rootOf_ok hp) ?_
      refine (data_ok R (ntpsValues_ok g (R.used hp) (R.cleanBelow hc p) hd hs hu
        (fun u => decide (u < v)))).mono ?_
      rintro o w' ⟨⟨r, rfl, rfl⟩, R'⟩
      exact ⟨rfl, R'⟩
  | satisfyCountData v a =>
      obtain ⟨hc, hfit, ⟨f, hf⟩, hv⟩ := hk
      obtain ⟨p, hp, hd⟩ := R.has a f hf
      simp only [exec, OutOK, next, made, hf.fn]
      refine Ok.bindEq (rootOf_ok hp) ?_
      refine (data_ok R (satisfyCountData_ok g (R.used hp) (R.cleanBelow hc p) hfit hd hv)).mono ?_
      rintro o w' ⟨⟨r, rfl, rfl⟩, R'⟩
      exact ⟨rfl, R'⟩
  | stateFrequency v a =>
      obtain ⟨hc, hfit, ⟨f, hf⟩, hv⟩ := hk
      obtain ⟨p, hp, hd⟩ := R.has a f hf
      simp only [exec, OutOK, next, made, hf.fn]
      refine Ok.bindEq (rootOf_ok hp) ?_
      refine (data_ok R (stateFrequency_ok g (R.used hp) (R.cleanBelow hc p) hfit hd hv)).mono ?_
      rintro o w' ⟨⟨r, rfl, rfl⟩, R'⟩
      exact ⟨rfl, R'⟩
  | structuralImportance a =>
      obtain ⟨hc, hfit, ⟨f, hf⟩, hv⟩ := hk
      obtain ⟨p, hp, hd⟩ := R.has a f hf
      simp only [exec, OutOK, next, made, hf.fn]
      refine Ok.bindEq (rootOf_ok hp) ?_
      refine (data_ok R (stateFrequency_ok g (R.used hp) (R.cleanBelow hc p) hfit hd hv)).mono ?_
      rintro o w' ⟨⟨r, rfl, rfl⟩, R'⟩
      exact ⟨rfl, R'⟩
  | birnbaumImportance pr a =>
      obtain ⟨hc, hs, f, hf, hu⟩ := hk
      obtain ⟨p, hp, hd⟩ := R.has a f hf
      simp only [exec, OutOK, next, made, hf.fn]
      refine Ok.bindEq (rootOf_ok hp) ?_
      refine (data_ok R (ntpsPost_ok g (R.used hp) (R.cleanBelow hc p) hd hs hu
        (selected := [1]) (by simp))).mono ?_
      rintro o w' ⟨⟨r, rfl, rfl⟩, R'⟩
      exact ⟨by simp only [List.mem_singleton]; rfl, R'⟩
  | fussellVesely pr u st i a =>
      obtain ⟨hc, hcan, hs, _, _, f, hf, h01, hl⟩ := hk
      obtain ⟨p, hp, hd⟩ := R.has a f hf
      simp only [exec, OutOK, next, made, hf.fn]
      refine Ok.bindEq (rootOf_ok hp) ?_
      obtain ⟨r, s', e, g', k', m', rfl⟩ := fussellVesely_good (E := envOf P σ) (u := u) (st := st)
        (i := i) (ha rfl) g hcan (R.cleanBelow hc p) (handle_prot (extL_pos hp)) hd h01
        (by rw [show levelVars (envOf P σ).c w.mgr = σ.order from R.order]; exact hl) hs
      refine Ok.bindEq (s' := { w with mgr := s' })
        (by simp only [onMgr]; rw [show Teddy.fussellVesely P.c pr u st i p w.mgr = _ from e]) ?_
      exact Ok.pure ⟨rfl, R.keeps g' k' m'⟩
  | dpld vc ch a =>
      obtain ⟨⟨f, hf⟩, h1, hv⟩ := hk
      obtain ⟨p, hp, hd⟩ := R.has a f hf
      simp only [exec, OutOK, next, made, hf.fn]
      refine Ok.bindEq (rootOf_ok hp) ?_
      exact making_ok R ((dpld_good (ha rfl) g (handle_prot (extL_pos hp)) hd (fun h => (hv h).1)
        (fun h => (hv h).2) (h1.of_le (by omega) (by omega)) h1).mono fun _ _ h => h.1.res)
  | toDpldE varFrom var a =>
      obtain ⟨hi', hU, hcan, f, hf, hdep⟩ := hk
      obtain ⟨p, hp, hd⟩ := R.has a f hf
      simp only [exec, OutOK, next, made, hf.fn]
      refine Ok.bindEq (rootOf_ok hp) ?_
      refine making_ok R ((toDpldE_good (ha rfl) g hU hi' (handle_prot (extL_pos hp)) hd ?_).mono
        fun _ _ h => h.res)
      intro q hq ss hk
      exact hdep ((tested_iff hi ho hcfg (g.canon hcan) (R.used hp) hd hi').1 ⟨q, ss, hq, hk⟩)
  | mcvs v a =>
      obtain ⟨hv, f, hf⟩ := hk
      obtain ⟨p, hp, _⟩ := R.has a f hf
      simp only [exec, OutOK, next, made, hf.fn]
      refine Ok.bindEq (rootOf_ok hp) ?_
      refine vectors_ok R (ha rfl) hv hf hp (cutChanges_ne hv.2.2.2.2).1 ?_ (fun x _ => critical_cut)
      intro vc hvc
      obtain ⟨h1, h2, h3⟩ := mem_cutChanges.1 hvc
      exact ⟨h1, by omega, by omega⟩
  | mpvs v a =>
      obtain ⟨hv, f, hf⟩ := hk
      obtain ⟨p, hp, _⟩ := R.has a f hf
      simp only [exec, OutOK, next, made, hf.fn]
      refine Ok.bindEq (rootOf_ok hp) ?_
      refine vectors_ok R (ha rfl) hv hf hp (cutChanges_ne hv.2.2.2.2).1 ?_ (fun x _ => critical_cut)
      intro vc hvc
      obtain ⟨h1, h2, h3⟩ := mem_cutChanges.1 hvc
      exact ⟨h1, by omega, by omega⟩
  | mpvsG v a =>
      obtain ⟨hv, f, hf⟩ := hk
      obtain ⟨p, hp, _⟩ := R.has a f hf
      simp only [exec, OutOK, next, made, hf.fn]
      refine Ok.bindEq (rootOf_ok hp) ?_
      refine vectors_ok R (ha rfl) hv hf hp (cutChanges_ne hv.2.2.2.2).2 ?_ (fun x hx => critical_path hx)
      intro vc hvc
      obtain ⟨h1, h2, h3⟩ := mem_pathChanges.1 hvc
      exact ⟨h1, by omega, by omega⟩

/-- Every admissible call runs without error, returns what the specification says and leaves the
world in the state the specification says. -/
theorem sim (R : Rel P σ w) {k : Call} (hk : Adm P σ k)
    (ha : k.defers = true → σ.auto = false := by no_defer) :
    Ok (exec P.c k) w (fun o w' => OutOK P σ o k ∧ Rel P (next P.c σ k o) w') := by
  refine (sim_after R hk ha).mono ?_
  rintro o w' ⟨h1, h2⟩
  refine ⟨h1, ?_⟩
  cases k <;> first | exact h2 | (cases h2; exact R)

/-- `get_cofactor` and `get_cofactors` also work when a reordering is due. -/
theorem cofactor_sim (R : Rel P σ w) {k : Call} (hc : k.isCofactor = true) (hk : Adm P σ k) :
    Ok (exec P.c k) w (fun o w' => o = .slot σ.slots.length ∧
      Rel P { next P.c σ k o with order := levelVars P.c w'.mgr, canon := false } w') := by
  have g := R.good
  cases k with
  | cofactor a i v =>
      obtain ⟨⟨f, hf⟩, hv⟩ := hk
      obtain ⟨p, hp, hd⟩ := R.has a f hf
      simp only [exec, next, made, hf.fn]
      refine Ok.bindEq (rootOf_ok hp) ?_
      exact making_deferred R (getCofactor_post (E := envOf P σ) g (handle_prot (extL_pos hp)) hd hv
        (fun _ _ nd => nd.post) fun _ _ nd => deferred_post nd)
  | cofactors a vars =>
      obtain ⟨⟨f, hf⟩, hv⟩ := hk
      obtain ⟨p, hp, hd⟩ := R.has a f hf
      simp only [exec, next, made, hf.fn]
      refine Ok.bindEq (rootOf_ok hp) ?_
      exact making_deferred R (getCofactors_post (E := envOf P σ) g (handle_prot (extL_pos hp)) hd hv
        (fun _ _ nd => nd.post) fun _ _ nd => deferred_post nd)
  | _ => cases hc

/-- After `set_auto_reorder(false)` and `force_reorder()` no reordering is due. -/
theorem settled_sim (R : Rel P σ w) :
    ∃ l w', execAll P.c [.setAutoReorder false, .forceReorder] w = .ok ([.unit, .nats l], w') ∧
      l.Perm (List.range P.c.n) ∧
      Rel P { σ with order := l, canon := false, cacheOK := false, auto := false } w' := by
  obtain ⟨o1, w1, e1, rfl, R1⟩ := setAutoReorder_sim R (b := false)
  have h1 : w1.mgr.autoReorder = false := by
    have e : exec P.c (.setAutoReorder false) w =
      .ok (.unit, { w with mgr := { w.mgr with autoReorder := false } }) := rfl
    rw [e] at e1
    cases e1
    rfl
  obtain ⟨o2, w2, e2, ⟨l, rfl, hl⟩, R2, ha, hd⟩ := forceReorder_sim R1
  refine ⟨l, w2, ?_, hl, ?_⟩
  · simp only [execAll]
    rw [bind_ok e1, bind_ok (bind_ok e2)]
    rfl
  · have g := R2.good
    exact ⟨⟨g.cfg, g.inv, g.ord, g.pool, fun _ => ha.trans h1, fun _ => hd, g.pool0, g.canon, g.cache⟩,
      R2.len, R2.has, R2.empty, R2.order, R2.clean⟩

end

end Teddy

import Verif.Proofs.Inv
import Verif.World

/-!
# Automatic reordering as long as the pool is not extended

The flag set by `set_auto_reorder` is read in one place, `make_new_node`, and only when the pool is
exhausted: with the flag the pool is extended and a reordering is left for later, without it garbage
is collected first.  So two runs of the same calls, with and without the flag, are in step until the
pool is extended for the first time.  `Flagless m` says this of the action `m`.
-/

namespace Teddy

/-- The same state with automatic reordering off. -/
@[reducible] def Mgr.off (s : Mgr) : Mgr := { s with autoReorder := false }

/-- The free nodes and the rest of the pool are counted. -/
def Mgr.Room (s : Mgr) : Prop := s.free.length + s.poolEnd ≤ s.avail + s.next

/-- The actions `m` and `m'`, started in `s` and in `s` without the flag, are in step: if `m`
returns, then either the pool was extended or `m'` returns the same and ends in the same state,
up to the flag.  The other way round, if `m'` returns, then either the pool is used up or `m` returns the same. -/
def InStep {α : Type} (m m' : M α) (s : Mgr) : Prop :=
  s.autoReorder = true →
    (∀ a t, m s = .ok (a, t) →
      t.autoReorder = true ∧ s.poolEnd ≤ t.poolEnd ∧
        (s.deferred = false → t.poolEnd = s.poolEnd →
          t.deferred = false ∧ m' s.off = .ok (a, t.off))) ∧
    ∀ a t, m' s.off = .ok (a, t) → ∃ u : Mgr, u.autoReorder = true ∧ t = u.off ∧ s.poolEnd ≤ u.poolEnd ∧
      (u.poolEnd = s.poolEnd → s.Room → u.Room ∧ s.next ≤ u.next ∧
        (s.deferred = false → u.next < u.poolEnd → u.deferred = false ∧ m s = .ok (a, u)))

/-- An action that is in step with itself from every state. -/
class Flagless {α : Type} (m : M α) : Prop where
  run : ∀ s, InStep m m s

/-- Extending the pool really extends it. -/
class Extends (c : Cfg) : Prop where
  pos : 0 < c.extra

namespace Flagless

variable {α β τ : Type}

theorem inStep_bind {m m' : M α} {f f' : α → M β} {s : Mgr} (hm : InStep m m' s)
    (hf : ∀ a t, InStep (f a) (f' a) t) : InStep (m >>= f) (m' >>= f') s := by
  refine fun hs => ⟨fun b u e => ?_, fun b u e => ?_⟩
  · rw [SM.bind_run] at e
    cases em : m s with
    | error err => rw [em] at e; cases e
    | ok r =>
      obtain ⟨a, t⟩ := r
      rw [em] at e
      obtain ⟨ht, hle, hr⟩ := (hm hs).1 a t em
      obtain ⟨hu, hle', hr'⟩ := (hf a t ht).1 b u e
      refine ⟨hu, Nat.le_trans hle hle', fun hd hp => ?_⟩
      have hpt : t.poolEnd = s.poolEnd := Nat.le_antisymm (hp ▸ hle') hle
      obtain ⟨hdt, e1⟩ := hr hd hpt
      obtain ⟨hdu, e2⟩ := hr' hdt (hp.trans hpt.symm)
      exact ⟨hdu, by rw [SM.bind_ok e1]; exact e2⟩
  · rw [SM.bind_run] at e
    cases em : m' s.off with
    | error err => rw [em] at e; cases e
    | ok r =>
      obtain ⟨a, t'⟩ := r
      rw [em] at e
      obtain ⟨t, ht, rfl, hle, hr⟩ := (hm hs).2 a t' em
      obtain ⟨u', hu, rfl, hle', hr'⟩ := (hf a t ht).2 b u e
      refine ⟨u', hu, rfl, Nat.le_trans hle hle', fun hp hroom => ?_⟩
      have hpt : t.poolEnd = s.poolEnd := Nat.le_antisymm (hp ▸ hle') hle
      obtain ⟨h1, h2, h3⟩ := hr hpt hroom
      obtain ⟨h4, h5, h6⟩ := hr' (hp.trans hpt.symm) h1
      refine ⟨h4, Nat.le_trans h2 h5, fun hd hlt => ?_⟩
      obtain ⟨hdt, e1⟩ := h3 hd (by omega)
      obtain ⟨hdu, e2⟩ := h6 hdt hlt
      exact ⟨hdu, by rw [SM.bind_ok e1]; exact e2⟩

instance instPure (a : α) : Flagless (Pure.pure a : M α) where
  run s hs := by
    constructor
    · intro b t e
      cases e
      exact ⟨hs, Nat.le_refl _, fun hd _ => ⟨hd, rfl⟩⟩
    · intro b t e
      cases e
      exact ⟨s, hs, rfl, Nat.le_refl _, fun _ h => ⟨h, Nat.le_refl _, fun hd _ => ⟨hd, rfl⟩⟩⟩

instance instThrow (e : Err) : Flagless (throw e : M α) where
  run _ _ := ⟨nofun, nofun⟩

theorem bind {m : M α} {f : α → M β} (hm : Flagless m) (hf : ∀ a, Flagless (f a)) :
    Flagless (m >>= f) where
  run s := inStep_bind (hm.run s) fun a => (hf a).run

theorem inStep_get {f f' : Mgr → M β} {s : Mgr} (h : InStep (f s) (f' s.off) s) :
    InStep (get >>= f) (get >>= f') s := by
  intro hs
  have e1 : (get >>= f) s = f s s := SM.bind_ok (SM.get_run s)
  have e2 : (get >>= f') s.off = f' s.off s.off := SM.bind_ok (SM.get_run s.off)
  rw [e1, e2]
  exact h hs

theorem bindGet {f : Mgr → M β} (h0 : ∀ s : Mgr, f s.off = f s) (h : ∀ s, Flagless (f s)) :
    Flagless (get >>= f) where
  run s := inStep_get (by rw [h0]; exact (h s).run s)

theorem inStep_set {s t t' : Mgr} (ha : s.autoReorder = true → t.autoReorder = true)
    (hp : t.poolEnd = s.poolEnd) (hd : t.deferred = s.deferred) (he : t' = t.off) (hr : s.Room → t.Room)
    (hn : s.next ≤ t.next) : InStep (set t) (set t') s := by
  refine fun hs => ⟨fun a u e => ?_, fun a u e => ?_⟩
  · cases e
    exact ⟨ha hs, Nat.le_of_eq hp.symm, fun h _ => ⟨hd.trans h, by rw [he]; rfl⟩⟩
  · cases e
    exact ⟨t, ha hs, he, Nat.le_of_eq hp.symm, fun _ h => ⟨hr h, hn, fun h _ => ⟨hd.trans h, rfl⟩⟩⟩

theorem modify {g : Mgr → Mgr} (ha : ∀ s, (g s).autoReorder = s.autoReorder)
    (hp : ∀ s, (g s).poolEnd = s.poolEnd)
    (hd : ∀ s : Mgr, s.deferred = false → (g s).deferred = false)
    (he : ∀ s : Mgr, g s.off = (g s).off) (hr : ∀ s : Mgr, s.Room → (g s).Room)
    (hn : ∀ s, (g s).next = s.next) : Flagless (modify g : M PUnit) where
  run s := by
    refine fun hs => ⟨fun a u e => ?_, fun a u e => ?_⟩
    · cases e
      refine ⟨(ha s).trans hs, Nat.le_of_eq (hp s).symm, fun h _ => ⟨hd s h, ?_⟩⟩
      rw [SM.modify_run, he]
    · cases e
      exact ⟨g s, (ha s).trans hs, he s, Nat.le_of_eq (hp s).symm, fun _ h =>
        ⟨hr s h, Nat.le_of_eq (hn s).symm, fun h _ => ⟨hd s h, rfl⟩⟩⟩

theorem ite {p : Prop} [Decidable p] {m m' : M α} (h : Flagless m) (h' : Flagless m') :
    Flagless (if p then m else m') := by
  split <;> assumption

theorem mapL {f : α → M β} (h : ∀ a, Flagless (f a)) (l : List α) : Flagless (mapL f l) := by
  induction l with
  | nil => exact instPure _
  | cons a l ih => exact bind (h a) fun _ => bind ih fun _ => instPure _

theorem forL {f : α → M Unit} (h : ∀ a, Flagless (f a)) (l : List α) : Flagless (forL f l) := by
  induction l with
  | nil => exact instPure _
  | cons a l ih => exact bind (h a) fun _ => ih

theorem foldL {f : α → τ → M τ} (h : ∀ a t, Flagless (f a t)) (l : List α) (t : τ) :
    Flagless (foldL f l t) := by
  induction l generalizing t with
  | nil => exact instPure _
  | cons a l ih => exact bind (h a t) fun _ => ih _

theorem mapAccL {f : α → τ → M (β × τ)} (h : ∀ a t, Flagless (f a t)) (l : List α) (t : τ) :
    Flagless (mapAccL f l t) := by
  induction l generalizing t with
  | nil => exact instPure _
  | cons a l ih => exact bind (h a t) fun _ => bind (ih _) fun _ => instPure _

end Flagless

/-- Take an action apart. -/
macro "flagless" : tactic => `(tactic| repeat' (first
  | with_reducible assumption
  | with_reducible infer_instance
  | ((with_reducible refine Flagless.bindGet ?_ (fun _ => ?_)); (· intro _; rfl))
  | with_reducible refine Flagless.bind ?_ (fun _ => ?_)
  | exact Flagless.modify (fun _ => rfl) (fun _ => rfl) (fun _ h => h) (fun _ => rfl) (fun _ h => h) (fun _ => rfl)
  | with_reducible refine Flagless.ite ?_ ?_
  | with_reducible refine Flagless.forL (fun _ => ?_) _
  | with_reducible refine Flagless.mapL (fun _ => ?_) _
  | with_reducible refine Flagless.foldL (fun _ _ => ?_) _ _
  | with_reducible refine Flagless.mapAccL (fun _ _ => ?_) _ _
  | split
  | dsimp only))

open Flagless

variable {c : Cfg}

instance (p : Ptr) : Flagless (chkUsed p) := by unfold chkUsed; flagless
instance (p : Ptr) : Flagless (getKind p) := by unfold getKind; flagless
instance (p : Ptr) : Flagless (setMarked p) := by unfold setMarked; flagless
instance (p : Ptr) : Flagless (setNotMarked p) := by unfold setNotMarked; flagless
instance (p : Ptr) : Flagless (toggleMarked p) := by unfold toggleMarked; flagless
instance (p : Ptr) : Flagless (isMarked p) := by unfold isMarked; flagless
instance (p : Ptr) : Flagless (incRef p) := by unfold incRef; flagless

instance (p : Ptr) : Flagless (decRef p) := by
  unfold decRef
  refine Flagless.bind inferInstance fun _ => ⟨fun s => inStep_get ?_⟩
  dsimp only
  split
  · exact (instThrow _).run s
  · exact inStep_set id rfl rfl rfl (fun h => h) (Nat.le_refl _)

instance (p : Ptr) : Flagless (getData p) := by unfold getData; flagless
instance (p : Ptr) (q : Rat) : Flagless (setData p q) := by unfold setData; flagless

instance : Flagless mallocSons := by
  unfold mallocSons
  refine ⟨fun s => inStep_get ?_⟩
  exact inStep_bind (inStep_set id rfl rfl rfl (fun h => h) (Nat.le_refl _)) fun _ => (instPure _).run

instance (a : Nat) : Flagless (freeSons a) := by
  unfold freeSons
  refine ⟨fun s => inStep_get ?_⟩
  dsimp only
  split
  · exact inStep_set id rfl rfl rfl (fun h => h) (Nat.le_refl _)
  · exact (instThrow _).run s

instance (p : Ptr) : Flagless (nodeDtor p) := by unfold nodeDtor; flagless
instance (p : Ptr) (k : Kind) : Flagless (nodeCtor p k) := by unfold nodeCtor; flagless
instance (p : Ptr) (i : Nat) (l : List Ptr) : Flagless (setSons p i l) := by
  unfold setSons; flagless

instance (k : Kind) : Flagless (poolCreate k) := by
  unfold poolCreate
  refine ⟨fun s => inStep_get ?_⟩
  dsimp only
  split
  · exact (instThrow _).run s
  · rename_i ha
    split
    · rename_i hf
      split
      · refine inStep_bind (inStep_set id rfl rfl rfl (fun h => ?_) (Nat.le_refl _)) fun _ =>
          (Flagless.bind inferInstance fun _ => Flagless.bind inferInstance fun _ => instPure _).run
        unfold Mgr.Room at h ⊢
        rw [hf, List.length_cons] at h
        dsimp only
        omega
      · exact (instThrow _).run s
    · split
      · refine inStep_bind (inStep_set id rfl rfl rfl (fun h => ?_) (Nat.le_succ _)) fun _ =>
          (Flagless.bind inferInstance fun _ => instPure _).run
        unfold Mgr.Room at h ⊢
        dsimp only
        omega
      · exact (instThrow _).run s

instance (p : Ptr) : Flagless (poolDestroy p) := by
  unfold poolDestroy
  refine Flagless.modify (fun _ => rfl) (fun _ => rfl) (fun _ h => h) (fun _ => rfl) (fun s h => ?_) (fun _ => rfl)
  unfold Mgr.Room at h ⊢
  simp only [List.length_cons]
  omega
instance (p : Ptr) : Flagless (getLevel c p) := by unfold getLevel; flagless
instance (l : Nat) : Flagless (getIndex c l) := by unfold getIndex; flagless
instance (p : Ptr) (k : Nat) : Flagless (getSon p k) := by unfold getSon; flagless

instance (p : Ptr) : Flagless (deleteNode p) := by
  unfold deleteNode
  refine Flagless.bind inferInstance fun _ => ⟨fun s => inStep_get ?_⟩
  dsimp only
  split
  · exact (instThrow _).run s
  · exact inStep_bind (inStep_set id rfl rfl rfl (fun h => h) (Nat.le_refl _)) fun _ => Flagless.run

instance (f : Links → Except Err Links) : Flagless (onLinks f) := by
  unfold onLinks
  refine ⟨fun s => inStep_get ?_⟩
  dsimp only
  cases f s.link with
  | ok L => exact inStep_set id rfl rfl rfl (fun h => h) (Nat.le_refl _)
  | error e => exact (instThrow _).run s

instance (i b : Nat) (p : Ptr) : Flagless (eraseBucket i b p) := by unfold eraseBucket; flagless

instance (i b : Nat) (p : Ptr) : Flagless (collectNode i b p) := by unfold collectNode; flagless
instance (i b f : Nat) (cur : Option Ptr) : Flagless (sweepChain i b f cur) := by
  induction f generalizing cur with
  | zero => unfold sweepChain; flagless
  | succ f ih =>
    cases cur with
    | none => unfold sweepChain; flagless
    | some p =>
      unfold sweepChain
      flagless
instance (i : Nat) : Flagless (collectTable i) := by unfold collectTable; flagless
instance (i : Nat) : Flagless (collectTerminal i) := by unfold collectTerminal; flagless
instance : Flagless collectSpecial := by unfold collectSpecial; flagless
instance : Flagless (collectGarbage c) := by unfold collectGarbage; flagless
instance : Flagless (forceGc c) := by unfold forceGc; flagless
instance : Flagless (adjustTables c) := by unfold adjustTables; flagless
instance : Flagless (adjustCaches c) := by unfold adjustCaches; flagless

/-- The one place where the flag is read. -/
instance [Extends c] : Flagless (makeRoom c) where
  run s := by
    have hpos := Extends.pos (c := c)
    refine fun hs => ⟨fun a t e => ?_, fun a t e => ?_⟩
    · unfold makeRoom at e ⊢
      rw [SM.bind_ok (SM.get_run s)] at e
      rw [SM.bind_ok (SM.get_run s.off)]
      simp only [hs, if_true] at e
      by_cases ha : s.avail = 0
      · simp only [ha, if_true] at e
        cases e
        exact ⟨hs, Nat.le_add_right _ _, fun _ hp => by
          have : s.poolEnd + c.extra = s.poolEnd := hp
          omega⟩
      · simp only [ha, if_false] at e ⊢
        cases e
        exact ⟨hs, Nat.le_refl _, fun hd _ => ⟨hd, rfl⟩⟩
    · unfold makeRoom at e ⊢
      rw [SM.bind_ok (SM.get_run s.off)] at e
      rw [SM.bind_ok (SM.get_run s)]
      by_cases ha : s.avail = 0
      · simp only [ha, if_true, Bool.false_eq_true, if_false] at e
        have full : s.Room → s.poolEnd ≤ s.next := fun h => by unfold Mgr.Room at h; omega
        rw [SM.bind_run] at e
        cases eg : forceGc c s.off with
        | error err => rw [eg] at e; cases e
        | ok r =>
          obtain ⟨x, t1⟩ := r
          rw [eg] at e
          obtain ⟨u, hu, rfl, hle, hr⟩ := ((inferInstance : Flagless (forceGc c)).run s hs).2 x t1 eg
          dsimp only at e
          rw [SM.bind_ok (SM.get_run u.off)] at e
          split at e
          · cases e
            refine ⟨{ u with
              next := u.poolEnd
              poolEnd := u.poolEnd + c.extra
              avail := u.avail + c.extra
              mem := { u.mem with pools := (u.poolEnd, c.extra) :: u.mem.pools } }, hu, rfl,
              Nat.le_trans hle (Nat.le_add_right _ _), fun hp => ?_⟩
            have : u.poolEnd + c.extra = s.poolEnd := hp
            omega
          · cases e
            refine ⟨u, hu, rfl, hle, fun hp h => ?_⟩
            obtain ⟨h1, h2, -⟩ := hr hp h
            have := full h
            exact ⟨h1, h2, fun _ hlt => by omega⟩
      · simp only [ha, if_false, Bool.false_eq_true] at e ⊢
        cases e
        exact ⟨s, hs, rfl, Nat.le_refl _, fun _ h => ⟨h, Nat.le_refl _, fun hd _ => ⟨hd, by simp only [hs, if_true]; rfl⟩⟩⟩

instance : Flagless (adjustAll c) := by unfold adjustAll; flagless
instance [Extends c] (k : Kind) : Flagless (makeNew c k) := by unfold makeNew; flagless
instance [Extends c] : Flagless (makeSpecial c) := by unfold makeSpecial; flagless
instance (v : Int) : Flagless (assertTerminal c v) := by unfold assertTerminal; flagless
instance [Extends c] (v : Int) : Flagless (makeTerminal c v) := by unfold makeTerminal; flagless
instance (i : Nat) (l : List Ptr) : Flagless (tableFind c i l) := by unfold tableFind; flagless
instance (i : Nat) (p : Ptr) (h : Nat) : Flagless (tableInsert i p h) := by unfold tableInsert; flagless
instance [Extends c] (i : Nat) (l : List Ptr) : Flagless (makeInternal c i l) := by
  unfold makeInternal; flagless

/-! ### Cache and traversals -/

instance (op : Nat) (b : Bool) (l r : Ptr) : Flagless (cacheFind c op b l r) := by
  unfold cacheFind; flagless
instance (op : Nat) (b : Bool) (x l r : Ptr) : Flagless (cachePut c op b x l r) := by
  unfold cachePut; flagless
instance : Flagless cacheClear := by unfold cacheClear; flagless

theorem traversePreImpl_flagless {τ : Type} {op : Ptr → τ → M τ} (h : ∀ p t, Flagless (op p t))
    (f : Nat) (p : Ptr) (t : τ) : Flagless (traversePreImpl op f p t) := by
  induction f generalizing p t with
  | zero => unfold traversePreImpl; flagless
  | succ f ih =>
    unfold traversePreImpl
    refine Flagless.bind inferInstance fun _ => Flagless.bind (h _ _) fun _ => ?_
    flagless

theorem traversePostImpl_flagless {τ : Type} {op : Ptr → τ → M τ} (h : ∀ p t, Flagless (op p t))
    (f : Nat) (p : Ptr) (t : τ) : Flagless (traversePostImpl op f p t) := by
  induction f generalizing p t with
  | zero => unfold traversePostImpl; flagless
  | succ f ih =>
    unfold traversePostImpl
    refine Flagless.bind inferInstance fun _ => Flagless.bind ?_ fun _ => h _ _
    flagless

theorem traversePre_flagless {τ : Type} {op : Ptr → τ → M τ} (h : ∀ p t, Flagless (op p t))
    (p : Ptr) (t : τ) : Flagless (traversePre c op p t) :=
  Flagless.bind (traversePreImpl_flagless h _ _ _) fun _ =>
    Flagless.bind (traversePreImpl_flagless (fun _ _ => instPure _) _ _ _) fun _ => instPure _

theorem traversePost_flagless {τ : Type} {op : Ptr → τ → M τ} (h : ∀ p t, Flagless (op p t))
    (p : Ptr) (t : τ) : Flagless (traversePost c op p t) :=
  Flagless.bind (traversePostImpl_flagless h _ _ _) fun _ =>
    Flagless.bind (traversePostImpl_flagless (fun _ _ => instPure _) _ _ _) fun _ => instPure _

instance (p : Ptr) (l : List Ptr) (bs : Nat → List Ptr) : Flagless (levelPushSons c p l bs) := by
  unfold levelPushSons; flagless

theorem traverseLevel_flagless {op : Ptr → M Unit} (h : ∀ p, Flagless (op p)) (p : Ptr) :
    Flagless (traverseLevel c op p) := by
  unfold traverseLevel
  flagless
  exact traversePreImpl_flagless (fun _ _ => instPure _) _ _ _

instance (p : Ptr) : Flagless (nodeCountOf c p) :=
  traversePre_flagless (fun _ _ => instPure _) _ _

/-! ### Reordering -/

instance (f : Nat) (p : Ptr) : Flagless (decRefTryGc c f p) := by
  induction f generalizing p with
  | zero => unfold decRefTryGc; flagless
  | succ f ih =>
    unfold decRefTryGc
    flagless

instance (j : Nat) (p : Ptr) (k : Nat) : Flagless (cofactorEntry j p k) := by
  unfold cofactorEntry; flagless
instance [Extends c] (p : Ptr) : Flagless (swapNodeWithNext c p) := by
  unfold swapNodeWithNext; flagless

instance (body : Ptr → M Unit) [∀ p, Flagless (body p)] (f : Nat) (cur : Option Ptr) :
    Flagless (walkChain body f cur) := by
  induction f generalizing cur with
  | zero => unfold walkChain; flagless
  | succ f ih =>
    cases cur with
    | none => unfold walkChain; flagless
    | some p =>
      unfold walkChain
      flagless

theorem inStep_getIndex {β : Type} {f f' : Nat → M β} {s : Mgr} {l : Nat}
    (h : ∀ j, InStep (f j) (f' j) s) :
    InStep (getIndex c l >>= f) (getIndex c l >>= f') s := by
  intro hs
  by_cases hl : l < c.n
  · have e1 : getIndex c l s = .ok (s.lvl2idx l, s) := by
      unfold getIndex
      rw [SM.bind_ok (SM.get_run s), if_pos hl]; rfl
    have e2 : getIndex c l s.off = .ok (s.lvl2idx l, s.off) := by
      unfold getIndex
      rw [SM.bind_ok (SM.get_run s.off), if_pos hl]; rfl
    have e3 : (getIndex c l >>= f) s = f (s.lvl2idx l) s := SM.bind_ok e1
    have e4 : (getIndex c l >>= f') s.off = f' (s.lvl2idx l) s.off := SM.bind_ok e2
    rw [e3, e4]
    exact h _ hs
  · have e1 : ∀ t : Mgr, getIndex c l t = .error .outOfRange := by
      intro t
      unfold getIndex
      rw [SM.bind_ok (SM.get_run t), if_neg hl]; rfl
    constructor <;> intro b u e <;> rw [SM.bind_run, e1] at e <;> cases e

instance [Extends c] (i : Nat) : Flagless (swapVariableWithNext c i) := by
  unfold swapVariableWithNext
  refine ⟨fun s => inStep_get (inStep_getIndex fun j =>
    inStep_bind (inStep_set id rfl rfl rfl (fun h => h) (Nat.le_refl _)) fun _ => (Flagless.run (self := ?_)))⟩
  flagless

instance [Extends c] (i f : Nat) (pl : Place) : Flagless (siftDownVar c i f pl) := by
  induction f generalizing pl with
  | zero => unfold siftDownVar; flagless
  | succ f ih =>
    unfold siftDownVar
    flagless
instance [Extends c] (i : Nat) : Flagless (moveVarUp c i) := by unfold moveVarUp; flagless
instance [Extends c] (i f : Nat) (pl : Place) : Flagless (siftUpVar c i f pl) := by
  induction f generalizing pl with
  | zero => unfold siftUpVar; flagless
  | succ f ih =>
    unfold siftUpVar
    flagless
instance [Extends c] (i o f l : Nat) : Flagless (siftRestore c i o f l) := by
  induction f generalizing l with
  | zero => unfold siftRestore; flagless
  | succ f ih =>
    unfold siftRestore
    flagless
instance [Extends c] (i : Nat) : Flagless (placeVariable c i) := by unfold placeVariable; flagless
instance [Extends c] : Flagless (siftVariables c) := by
  unfold siftVariables
  flagless
  exact Flagless.modify (fun _ => rfl) (fun _ => rfl) (fun _ _ => rfl) (fun _ => rfl) (fun _ h => h) (fun _ => rfl)
instance [Extends c] : Flagless (runDeferred c) := by unfold runDeferred; flagless

/-! ### `diagram_manager.hpp` -/

instance (p : Ptr) : Flagless (mkDiagram p) := by unfold mkDiagram; flagless
instance (p : Ptr) : Flagless (copyHandle p) := by unfold copyHandle; flagless
instance (p : Ptr) : Flagless (dropHandle p) := by unfold dropHandle; flagless
instance {α : Type} (e : Except Err α) : Flagless (liftE e : M α) := by unfold liftE; flagless
instance (i : Nat) : Flagless (getDomain c i) := by unfold getDomain; flagless
instance [Extends c] (v : Int) : Flagless (constant c v) := by unfold constant; flagless
instance [Extends c] (i : Nat) : Flagless (variableImpl c i) := by unfold variableImpl; flagless
instance [Extends c] (i : Nat) : Flagless (variableD c i) := by unfold variableD; flagless
instance [Extends c] (i : Nat) : Flagless (variableNot c i) := by unfold variableNot; flagless
instance (p : Ptr) : Flagless (valueOrND p) := by unfold valueOrND; flagless
instance (p : Ptr) (l t k : Nat) : Flagless (sonAtTop p l t k) := by unfold sonAtTop; flagless

instance [Extends c] (op : BinOp) (f : Nat) (l r : Ptr) : Flagless (applyImpl c op f l r) := by
  induction f generalizing l r with
  | zero => unfold applyImpl; flagless
  | succ f ih =>
    unfold applyImpl
    flagless
instance [Extends c] (op : BinOp) (l r : Ptr) : Flagless (apply c op l r) := by
  unfold apply; flagless

instance [Extends c] (op : List Int → Except Err Int) (f : Nat) (ps : List Ptr) (m : NCache) :
    Flagless (applyNImpl c op f ps m) := by
  induction f generalizing ps m with
  | zero => unfold applyNImpl; flagless
  | succ f ih =>
    unfold applyNImpl
    flagless
instance [Extends c] (op : BinOp) (ps : List Ptr) : Flagless (applyN c op ps) := by
  unfold applyN; flagless

instance [Extends c] (op : BinOp) (ps : List Ptr) (r : Ptr) :
    Flagless (leftFoldLoop c op ps r) := by
  induction ps generalizing r with
  | nil => unfold leftFoldLoop; flagless
  | cons d ds ih =>
    unfold leftFoldLoop
    flagless
instance [Extends c] (op : BinOp) (ps : List Ptr) : Flagless (leftFold c op ps) := by
  unfold leftFold; flagless
instance (xs : List (Option Ptr)) (i : Nat) (p : Option Ptr) : Flagless (assignSlot xs i p) := by
  unfold assignSlot; flagless
instance (xs : List (Option Ptr)) (i : Nat) : Flagless (readSlot xs i) := by
  unfold readSlot; flagless
instance [Extends c] (op : BinOp) (is : List Nat) (xs : List (Option Ptr)) :
    Flagless (treePairs c op is xs) := by
  induction is generalizing xs with
  | nil => unfold treePairs; flagless
  | cons i is ih =>
    unfold treePairs
    flagless
instance (xs : List (Option Ptr)) (i j : Nat) : Flagless (moveSlot xs i j) := by
  unfold moveSlot; flagless
instance [Extends c] (op : BinOp) (n k : Nat) (xs : List (Option Ptr)) :
    Flagless (treeSteps c op n k xs) := by
  induction n generalizing k xs with
  | zero => unfold treeSteps; flagless
  | succ n ih =>
    unfold treeSteps
    flagless
instance [Extends c] (op : BinOp) (xs : List (Option Ptr)) : Flagless (treeFold c op xs) := by
  unfold treeFold; flagless

instance (f : Nat) (p : Ptr) (x : Asg) : Flagless (evalNode f p x) := by
  induction f generalizing p with
  | zero => unfold evalNode; flagless
  | succ f ih =>
    unfold evalNode
    flagless
instance (p : Ptr) (x : Asg) : Flagless (evaluate c p x) := by unfold evaluate; flagless
instance (a b : Nat) : Flagless (domainProduct c a b) := by unfold domainProduct; flagless
instance (v : Int) : Flagless (assertValue c v) := by unfold assertValue; flagless
instance (v : Int) (p : Ptr) (m : Ptr → Int) : Flagless (satCountVisit c v p m) := by
  unfold satCountVisit; flagless
instance (v : Int) (p : Ptr) : Flagless (satisfyCount c v p) := by
  unfold satisfyCount
  flagless
  exact traversePost_flagless inferInstance _ _

theorem firstSon_flagless {t : Ptr → Asg → M (Bool × Asg)} (h : ∀ p x, Flagless (t p x))
    (i k : Nat) (qs : List Ptr) (x : Asg) : Flagless (firstSon t i k qs x) := by
  induction qs generalizing k x with
  | nil => unfold firstSon; flagless
  | cons q qs ih =>
    unfold firstSon
    flagless
instance (v : Int) (f : Nat) (p : Ptr) (x : Asg) : Flagless (satOneImpl v f p x) := by
  induction f generalizing p x with
  | zero => unfold satOneImpl; flagless
  | succ f ih =>
    unfold satOneImpl
    flagless
    exact firstSon_flagless ih _ _ _ _
instance (v : Int) (p : Ptr) : Flagless (satisfyOne c v p) := by unfold satisfyOne; flagless
instance (v : Int) (f : Nat) (p : Ptr) (l : Nat) (x : Asg) (o : List (List Nat)) :
    Flagless (satAllImpl c v f p l x o) := by
  induction f generalizing p l x o with
  | zero => unfold satAllImpl; flagless
  | succ f ih =>
    unfold satAllImpl
    flagless
instance (v : Int) (p : Ptr) : Flagless (satisfyAll c v p) := by unfold satisfyAll; flagless

instance [Extends c] (i v f : Nat) (p : Ptr) (m : Memo) : Flagless (cofactorImpl c i v f p m) := by
  induction f generalizing p m with
  | zero => unfold cofactorImpl; flagless
  | succ f ih =>
    unfold cofactorImpl
    flagless
instance [Extends c] (p : Ptr) (i v : Nat) : Flagless (getCofactor c p i v) := by
  unfold getCofactor; flagless
instance [Extends c] (vs : List (Nat × Nat)) (f k : Nat) (p : Ptr) (m : Memo) :
    Flagless (cofactorsImpl c vs f k p m) := by
  induction f generalizing k p m with
  | zero => unfold cofactorsImpl; flagless
  | succ f ih =>
    unfold cofactorsImpl
    flagless
instance [Extends c] (p : Ptr) (vs : List (Nat × Nat)) : Flagless (getCofactors c p vs) := by
  unfold getCofactors; flagless
instance [Extends c] (g : Int → Int) (f : Nat) (p : Ptr) (m : Memo) :
    Flagless (transformImpl c g f p m) := by
  induction f generalizing p m with
  | zero => unfold transformImpl; flagless
  | succ f ih =>
    unfold transformImpl
    flagless
instance [Extends c] (g : Int → Int) (p : Ptr) : Flagless (transform c g p) := by
  unfold transform; flagless
instance [Extends c] (p : Ptr) : Flagless (negate c p) := by unfold negate; flagless
instance [Extends c] (p : Ptr) : Flagless (reduce c p) := by unfold reduce; flagless
instance (p : Ptr) (t : (Nat → Bool) × List Nat) : Flagless (dependencyVisit p t) := by
  unfold dependencyVisit; flagless
instance (p : Ptr) : Flagless (dependencySet c p) := by
  unfold dependencySet
  flagless
  exact traversePre_flagless inferInstance _ _

theorem odometer_off (s : Mgr) (l : Nat) (x : Asg) : odometer c s.off l x = odometer c s l x := by
  induction l generalizing x with
  | zero => rfl
  | succ l ih => simp only [odometer, ih]
instance (p : Ptr) (f : Nat) (x : Asg) (o : List Int) : Flagless (toVectorLoop c p f x o) := by
  induction f generalizing x o with
  | zero => unfold toVectorLoop; flagless
  | succ f ih =>
    unfold toVectorLoop
    refine Flagless.bind inferInstance fun _ => Flagless.bindGet (fun s => ?_) fun _ => ?_
    · simp only [odometer_off]
    · flagless
instance (p : Ptr) : Flagless (toVector c p) := by unfold toVector; flagless

instance [Extends c] (f : Nat) (st : List Frame) : Flagless (shrinkStack c f st) := by
  induction f generalizing st with
  | zero => unfold shrinkStack; flagless
  | succ f ih =>
    unfold shrinkStack
    flagless
instance [Extends c] (k : Nat) (vs : List Int) : Flagless (readVals c k vs) := by
  induction k generalizing vs with
  | zero => unfold readVals; flagless
  | succ k ih =>
    cases vs with
    | nil => unfold readVals; flagless
    | cons v vs =>
      unfold readVals
      flagless
instance [Extends c] (i l f : Nat) (vs : List Int) (st : List Frame) :
    Flagless (fromVectorLoop c i l f vs st) := by
  induction f generalizing vs st with
  | zero => unfold fromVectorLoop; flagless
  | succ f ih =>
    unfold fromVectorLoop
    flagless
instance [Extends c] (vs : List Int) : Flagless (fromVector c vs) := by unfold fromVector; flagless
instance [Extends c] (e : Expr) : Flagless (exprImpl c e) := by
  induction e with
  | const v => unfold exprImpl; flagless
  | var i => unfold exprImpl; flagless
  | op f l r ihl ihr => unfold exprImpl; flagless
instance [Extends c] (e : Expr) : Flagless (fromExpressionTree c e) := by
  unfold fromExpressionTree; flagless
instance : Flagless (forceGcD c) := by unfold forceGcD; flagless
instance [Extends c] : Flagless (forceReorder c) := by unfold forceReorder; flagless
instance : Flagless clearCache := by unfold clearCache; flagless
instance : Flagless getNodeCount := by unfold getNodeCount; flagless
instance : Flagless (getOrder c) := by unfold getOrder; flagless
instance (n d : Nat) : Flagless (setGcRatio c n d) := by unfold setGcRatio; flagless
instance (n d : Nat) : Flagless (setCacheRatio c n d) := by unfold setCacheRatio; flagless
instance (xs : List (Option Ptr)) : Flagless (dropAll xs) := by
  induction xs with
  | nil => unfold dropAll; flagless
  | cons x xs ih => cases x <;> unfold dropAll <;> flagless

/-! ### `pla_file.hpp`, `reliability_manager.hpp` -/

instance [Extends c] (k : Pla.Cube) (i : Nat) : Flagless (plaLiteral c k i) := by
  unfold plaLiteral; flagless
instance [Extends c] (k : Pla.Cube) : Flagless (plaProduct c k) := by unfold plaProduct; flagless
instance [Extends c] (i : Nat) (l : Pla.Line) : Flagless (plaLine c i l) := by
  unfold plaLine; flagless
instance [Extends c] (b : Bool) (l : List Ptr) : Flagless (plaOrFold c b l) := by
  unfold plaOrFold; flagless
instance [Extends c] (f : Pla.File) (b : Bool) (i : Nat) : Flagless (plaFunction c f b i) := by
  unfold plaFunction; flagless
instance [Extends c] (f : Pla.File) (b : Bool) : Flagless (fromPla c f b) := by
  unfold fromPla; flagless

theorem forEachTerminal_flagless {f : Ptr → M Unit} (h : ∀ p, Flagless (f p)) :
    Flagless (forEachTerminal f) := by
  unfold forEachTerminal
  flagless
instance (v : Int) : Flagless (getTerminal v) := by unfold getTerminal; flagless
instance (P : Nat → Nat → Rat) (p : Ptr) (u : Unit) : Flagless (ntpsPostVisit P p u) := by
  unfold ntpsPostVisit; flagless
instance (vs : List Int) (P : Nat → Nat → Rat) (p : Ptr) : Flagless (ntpsPost c vs P p) := by
  unfold ntpsPost
  flagless
  · exact forEachTerminal_flagless inferInstance
  · exact traversePost_flagless inferInstance _ _
instance (P : Nat → Nat → Rat) (p : Ptr) : Flagless (ntpsLevelVisit P p) := by
  unfold ntpsLevelVisit; flagless
instance (P : Nat → Nat → Rat) (p : Ptr) : Flagless (calculateProbabilities c P p) := by
  unfold calculateProbabilities
  flagless
  · exact traversePre_flagless (fun _ _ => inferInstance) _ _
  · exact forEachTerminal_flagless inferInstance
  · exact traverseLevel_flagless inferInstance _
instance (v : Int) (P : Nat → Nat → Rat) (p : Ptr) : Flagless (calculateProbability c v P p) := by
  unfold calculateProbability; flagless
instance (φ : Int → Bool) : Flagless (terminalValues φ) := by unfold terminalValues; flagless
instance (v : Int) (P : Nat → Nat → Rat) (p : Ptr) : Flagless (calculateAvailability c v P p) := by
  unfold calculateAvailability; flagless
instance (v : Int) (P : Nat → Nat → Rat) (p : Ptr) :
    Flagless (calculateUnavailability c v P p) := by
  unfold calculateUnavailability; flagless
instance (v : Int) (p : Ptr) (u : Unit) : Flagless (satCountDataVisit c v p u) := by
  unfold satCountDataVisit; flagless
instance (v : Int) (p : Ptr) : Flagless (satisfyCountData c v p) := by
  unfold satisfyCountData
  flagless
  exact traversePost_flagless inferInstance _ _
instance (v : Int) (p : Ptr) : Flagless (stateFrequency c v p) := by
  unfold stateFrequency; flagless
instance (p : Ptr) (k i v : Nat) : Flagless (dpldSon p k i v) := by unfold dpldSon; flagless
instance [Extends c] (vc : VarChange) (ch : Int → Int → Bool) (f : Nat) (pq : Ptr × Ptr)
    (m : DMemo) : Flagless (dpldImpl c vc ch f pq m) := by
  induction f generalizing pq m with
  | zero => unfold dpldImpl; flagless
  | succ f ih =>
    obtain ⟨p, q⟩ := pq
    unfold dpldImpl
    flagless
instance [Extends c] (vc : VarChange) (ch : Int → Int → Bool) (p : Ptr) :
    Flagless (dpld c vc ch p) := by
  unfold dpld; flagless
instance [Extends c] (a i : Nat) (p : Ptr) : Flagless (undefinedExcept c a i p) := by
  unfold undefinedExcept; flagless
instance [Extends c] (a i f : Nat) (p : Ptr) (m : Memo) : Flagless (toDpldEImpl c a i f p m) := by
  induction f generalizing p m with
  | zero => unfold toDpldEImpl; flagless
  | succ f ih =>
    unfold toDpldEImpl
    flagless
instance [Extends c] (a i : Nat) (p : Ptr) : Flagless (toDpldE c a i p) := by
  unfold toDpldE; flagless
instance (p : Ptr) : Flagless (structuralImportance c p) := by
  unfold structuralImportance; flagless
instance (P : Nat → Nat → Rat) (p : Ptr) : Flagless (birnbaumImportance c P p) := by
  unfold birnbaumImportance; flagless
instance (l : List Ptr) (k : Nat) : Flagless (sonAt l k) := by unfold sonAt; flagless
instance (v : Int) (p : Ptr) : Flagless (isTerminalOf v p) := by unfold isTerminalOf; flagless
instance (k : Nat) (l : List Ptr) : Flagless (mnfOnes k l) := by
  induction k generalizing l with
  | zero => unfold mnfOnes; flagless
  | succ k ih =>
    unfold mnfOnes
    flagless
instance (k : Nat) (l : List Ptr) : Flagless (mnfZeros k l) := by
  induction k generalizing l with
  | zero => unfold mnfZeros; flagless
  | succ k ih =>
    unfold mnfZeros
    flagless
instance [Extends c] (f : Nat) (p : Ptr) (m : Memo) : Flagless (toMnfImpl c f p m) := by
  induction f generalizing p m with
  | zero => unfold toMnfImpl; flagless
  | succ f ih =>
    unfold toMnfImpl
    flagless
instance [Extends c] (p : Ptr) : Flagless (toMnf c p) := by unfold toMnf; flagless
instance [Extends c] (P : Nat → Nat → Rat) (u : Rat) (s i : Nat) (p : Ptr) :
    Flagless (fussellVesely c P u s i p) := by
  unfold fussellVesely; flagless
instance [Extends c] (ch : Int → Int → Bool) (p : Ptr) (l : List VarChange) :
    Flagless (dpldes c ch p l) := by
  unfold dpldes; flagless
instance [Extends c] (ch : Int → Int → Bool) (p : Ptr) (l : List VarChange) :
    Flagless (vectorsG c ch p l) := by
  unfold vectorsG; flagless
instance [Extends c] (v : Int) (p : Ptr) : Flagless (mcvs c v p) := by unfold mcvs; flagless
instance [Extends c] (v : Int) (p : Ptr) : Flagless (mpvs c v p) := by unfold mpvs; flagless
instance [Extends c] (v : Int) (p : Ptr) : Flagless (mpvsG c v p) := by unfold mpvsG; flagless

/-! ### Calls -/

/-- The same world with automatic reordering off. -/
@[reducible] def World.off (w : World) : World := { w with mgr := w.mgr.off }

/-- `Flagless` for a program: it goes the same way without the flag unless the pool is extended, and the same way with
the flag unless the pool is used up. -/
class FlaglessW {α : Type} (m : SM World α) : Prop where
  run : ∀ w : World, w.mgr.autoReorder = true →
    (∀ a w', m w = .ok (a, w') →
      w'.mgr.autoReorder = true ∧ w.mgr.poolEnd ≤ w'.mgr.poolEnd ∧
        (w.mgr.deferred = false → w'.mgr.poolEnd = w.mgr.poolEnd →
          w'.mgr.deferred = false ∧ m w.off = .ok (a, w'.off))) ∧
    ∀ a w', m w.off = .ok (a, w') → ∃ v : World, v.mgr.autoReorder = true ∧ w' = v.off ∧ w.mgr.poolEnd ≤ v.mgr.poolEnd ∧
      (v.mgr.poolEnd = w.mgr.poolEnd → w.mgr.Room → v.mgr.Room ∧ w.mgr.next ≤ v.mgr.next ∧
        (w.mgr.deferred = false → v.mgr.next < v.mgr.poolEnd → v.mgr.deferred = false ∧ m w = .ok (a, v)))

namespace FlaglessW

variable {α β : Type}

/-- An action that does not touch the manager. -/
theorem still {m : SM World α} (h : ∀ w : World, (∃ x, m w = .error x ∧ m w.off = .error x) ∨
    ∃ a l, m w = .ok (a, { w with slots := l }) ∧ m w.off = .ok (a, { w.off with slots := l })) : FlaglessW m where
  run w hs := by
    rcases h w with ⟨x, e1, e2⟩ | ⟨b, l, e1, e2⟩
    · rw [e1, e2]
      exact ⟨nofun, nofun⟩
    · rw [e1, e2]
      constructor
      · intro a w' e
        cases e
        exact ⟨hs, Nat.le_refl _, fun hd _ => ⟨hd, rfl⟩⟩
      · intro a w' e
        cases e
        exact ⟨{ w with slots := l }, hs, rfl, Nat.le_refl _, fun _ h => ⟨h, Nat.le_refl _, fun hd _ => ⟨hd, rfl⟩⟩⟩

instance instPure (a : α) : FlaglessW (Pure.pure a : SM World α) := still fun _ => .inr ⟨_, _, rfl, rfl⟩

instance instThrow (e : Err) : FlaglessW (throw e : SM World α) := still fun _ => .inl ⟨_, rfl, rfl⟩

theorem bind {m : SM World α} {f : α → SM World β} (hm : FlaglessW m)
    (hf : ∀ a, FlaglessW (f a)) : FlaglessW (m >>= f) where
  run w hs := by
    refine ⟨fun b u e => ?_, fun b u e => ?_⟩
    · rw [SM.bind_run] at e
      cases em : m w with
      | error err => rw [em] at e; cases e
      | ok r =>
        obtain ⟨a, t⟩ := r
        rw [em] at e
        obtain ⟨ht, hle, hr⟩ := (hm.run w hs).1 a t em
        obtain ⟨hu, hle', hr'⟩ := ((hf a).run t ht).1 b u e
        refine ⟨hu, Nat.le_trans hle hle', fun hd hp => ?_⟩
        have hpt : t.mgr.poolEnd = w.mgr.poolEnd := Nat.le_antisymm (hp ▸ hle') hle
        obtain ⟨hdt, e1⟩ := hr hd hpt
        obtain ⟨hdu, e2⟩ := hr' hdt (hp.trans hpt.symm)
        exact ⟨hdu, by rw [SM.bind_ok e1]; exact e2⟩
    · rw [SM.bind_run] at e
      cases em : m w.off with
      | error err => rw [em] at e; cases e
      | ok r =>
        obtain ⟨a, t'⟩ := r
        rw [em] at e
        obtain ⟨t, ht, rfl, hle, hr⟩ := (hm.run w hs).2 a t' em
        obtain ⟨u', hu, rfl, hle', hr'⟩ := ((hf a).run t ht).2 b u e
        refine ⟨u', hu, rfl, Nat.le_trans hle hle', fun hp hroom => ?_⟩
        have hpt : t.mgr.poolEnd = w.mgr.poolEnd := Nat.le_antisymm (hp ▸ hle') hle
        obtain ⟨h1, h2, h3⟩ := hr hpt hroom
        obtain ⟨h4, h5, h6⟩ := hr' (hp.trans hpt.symm) h1
        refine ⟨h4, Nat.le_trans h2 h5, fun hd hlt => ?_⟩
        obtain ⟨hdt, e1⟩ := h3 hd (by omega)
        obtain ⟨hdu, e2⟩ := h6 hdt hlt
        exact ⟨hdu, by rw [SM.bind_ok e1]; exact e2⟩

theorem bindGet {f : World → SM World β} (h0 : ∀ w : World, f w.off = f w)
    (h : ∀ w, FlaglessW (f w)) : FlaglessW (get >>= f) where
  run w hs := by
    have e1 : (get >>= f) w = f w w := SM.bind_ok (SM.get_run w)
    have e2 : (get >>= f) w.off = f w w.off := by rw [← h0]; exact SM.bind_ok (SM.get_run w.off)
    rw [e1, e2]
    exact (h w).run w hs

theorem slots (g : World → List (Option Ptr)) (h : ∀ w : World, g w.off = g w) :
    FlaglessW (modify fun w => { w with slots := g w } : SM World PUnit) :=
  still fun w => .inr ⟨⟨⟩, g w, rfl, by rw [SM.modify_run, h]⟩

instance instOnMgr (m : M α) [h : Flagless m] : FlaglessW (onMgr m) where
  run w hs := by
    refine ⟨fun b u e => ?_, fun b u e => ?_⟩
    · unfold onMgr at e
      cases em : m w.mgr with
      | error err => rw [em] at e; cases e
      | ok r =>
        obtain ⟨a, t⟩ := r
        rw [em] at e
        cases e
        obtain ⟨h1, h2, h3⟩ := (h.run w.mgr hs).1 _ _ em
        refine ⟨h1, h2, fun hd hp => ⟨(h3 hd hp).1, ?_⟩⟩
        show onMgr m w.off = _
        unfold onMgr
        rw [(h3 hd hp).2]
    · unfold onMgr at e
      cases em : m w.mgr.off with
      | error err => rw [show w.off.mgr = w.mgr.off from rfl, em] at e; cases e
      | ok r =>
        obtain ⟨a, t⟩ := r
        rw [show w.off.mgr = w.mgr.off from rfl, em] at e
        cases e
        obtain ⟨t', h1, rfl, h2, h3⟩ := (h.run w.mgr hs).2 _ _ em
        refine ⟨{ w with mgr := t' }, h1, rfl, h2, fun hp hroom => ?_⟩
        obtain ⟨h4, h5, h6⟩ := h3 hp hroom
        refine ⟨h4, h5, fun hd hlt => ⟨(h6 hd hlt).1, ?_⟩⟩
        unfold onMgr
        rw [(h6 hd hlt).2]

instance instRoot (a : Nat) : FlaglessW (rootOf a) := still fun w => by
  cases hw : w.slots[a]? with
  | none => exact .inl ⟨_, by unfold rootOf; rw [hw], by unfold rootOf; rw [show w.off.slots = w.slots from rfl, hw]⟩
  | some o =>
    cases o with
    | none => exact .inl ⟨_, by unfold rootOf; rw [hw], by unfold rootOf; rw [show w.off.slots = w.slots from rfl, hw]⟩
    | some p =>
      exact .inr ⟨p, w.slots, by unfold rootOf; rw [hw], by unfold rootOf; rw [show w.off.slots = w.slots from rfl, hw]⟩

instance instPtr (a : Nat) : FlaglessW (ptrOf a) := still fun w => by
  cases hw : w.slots[a]? with
  | none => exact .inl ⟨_, by unfold ptrOf; rw [hw], by unfold ptrOf; rw [show w.off.slots = w.slots from rfl, hw]⟩
  | some o =>
    exact .inr ⟨o, w.slots, by unfold ptrOf; rw [hw], by unfold ptrOf; rw [show w.off.slots = w.slots from rfl, hw]⟩

instance instPush (p : Ptr) : FlaglessW (push p) := still fun _ => .inr ⟨_, _, rfl, rfl⟩

instance instPushAll (ps : List Ptr) : FlaglessW (pushAll ps) := still fun _ => .inr ⟨_, _, rfl, rfl⟩

instance instMaking (m : M Ptr) [Flagless m] : FlaglessW (making m) :=
  bind inferInstance fun _ => inferInstance

instance instMapL (f : α → SM World β) [h : ∀ a, FlaglessW (f a)] (l : List α) :
    FlaglessW (mapL f l) := by
  induction l with
  | nil => exact instPure _
  | cons a l ih => exact bind (h a) fun _ => bind ih fun _ => instPure _

end FlaglessW

instance [Extends c] (op : BinOp) (ps : List Ptr) : Flagless (treeFoldCopies c op ps) := by
  unfold treeFoldCopies; flagless

/-- Take a call apart. -/
macro "flaglessw" : tactic => `(tactic| repeat' (first
  | with_reducible assumption
  | with_reducible infer_instance
  | ((with_reducible refine FlaglessW.bindGet ?_ (fun _ => ?_)); (· intro _; rfl))
  | with_reducible refine FlaglessW.bind ?_ (fun _ => ?_)
  | exact FlaglessW.slots _ (fun _ => rfl)
  | split
  | dsimp only))

/-- `set_auto_reorder` is not called. -/
def Call.noAuto : Call → Bool
  | .setAutoReorder _ => false
  | _ => true

theorem exec_flagless [Extends c] (k : Call) (hk : k.noAuto = true) : FlaglessW (exec c k) := by
  cases k <;> first | (cases hk; done) | (unfold exec; flaglessw)

theorem execAll_flagless [Extends c] (ks : List Call) (hk : ∀ k ∈ ks, k.noAuto = true) :
    FlaglessW (execAll c ks) := by
  induction ks with
  | nil => unfold execAll; flaglessw
  | cons k ks ih =>
    have := exec_flagless (c := c) k (hk k (by simp))
    have := ih fun k h => hk k (by simp [h])
    unfold execAll
    flaglessw

theorem Call.noAuto_of {k : Call} (h : ∀ b, k ≠ .setAutoReorder b) : k.noAuto = true := by
  cases k <;> first | rfl | exact absurd rfl (h _)

theorem execAll_append (ks ls : List Call) (w : World) :
    execAll c (ks ++ ls) w = (do
      let os ← execAll c ks
      let os' ← execAll c ls
      pure (os ++ os')) w := by
  induction ks generalizing w with
  | nil =>
    show execAll c ls w = _
    simp only [execAll, List.nil_append, pure_bind, bind_pure]
  | cons k ks ih =>
    simp only [List.cons_append, execAll, SM.bind_run]
    cases exec c k w with
    | error e => rfl
    | ok r =>
      dsimp only
      rw [ih, SM.bind_run]
      cases execAll c ks r.2 with
      | error e => rfl
      | ok r' =>
        dsimp only
        rw [SM.bind_run, SM.pure_run]
        dsimp only
        cases execAll c ls r'.2 <;> rfl

/-- A program between `set_auto_reorder(true)` and `set_auto_reorder(false)`. -/
theorem execAll_auto (hc : Extends c) {w : World} (ha : w.mgr.autoReorder = false)
    (hd : w.mgr.deferred = false) {ks : List Call} (hk : ∀ k ∈ ks, k.noAuto = true)
    {os : List Out} {w' : World}
    (e : execAll c (.setAutoReorder true :: (ks ++ [.setAutoReorder false])) w = .ok (os, w'))
    (hpool : w'.mgr.poolEnd = w.mgr.poolEnd) :
    ∃ os', os = .unit :: (os' ++ [.unit]) ∧ execAll c ks w = .ok (os', w') := by
  have e1 : exec c (.setAutoReorder true) w =
      .ok (.unit, { w with mgr := { w.mgr with autoReorder := true } }) := rfl
  rw [execAll, SM.bind_ok e1, SM.bind_run, execAll_append, SM.bind_run] at e
  cases e2 : execAll c ks { w with mgr := { w.mgr with autoReorder := true } } with
  | error x => rw [e2] at e; cases e
  | ok r =>
    obtain ⟨os', u⟩ := r
    rw [e2] at e
    have e3 : execAll c [.setAutoReorder false] u =
        .ok ([.unit], { u with mgr := { u.mgr with autoReorder := false } }) := rfl
    simp only [SM.bind_run, e3] at e
    cases e
    obtain ⟨-, -, h3⟩ := ((execAll_flagless ks hk).run _ rfl).1 _ _ e2
    obtain ⟨-, h5⟩ := h3 hd hpool
    refine ⟨os', rfl, ?_⟩
    have hw : World.off { w with mgr := { w.mgr with autoReorder := true } } = w := by
      obtain ⟨m, sl⟩ := w
      cases m
      cases ha
      rfl
    rw [hw] at h5
    exact h5

/-- The flag is set. -/
def World.on (w : World) : World := { w with mgr := { w.mgr with autoReorder := true } }

theorem World.on_off {w : World} (ha : w.mgr.autoReorder = false) : w.on.off = w := by
  obtain ⟨m, sl⟩ := w
  cases m
  cases ha
  rfl

theorem World.off_on {v : World} (ha : v.mgr.autoReorder = true) : v.off.on = v := by
  obtain ⟨m, sl⟩ := v
  cases m
  cases ha
  rfl

/-- From a run without automatic reordering that leaves unused nodes in the pool to a run with it. -/
theorem FlaglessW.on_of {m : SM World α} (hm : FlaglessW m) {w w' : World} {a : α} (ha : w.mgr.autoReorder = false)
    (hd : w.mgr.deferred = false) (hr : w.mgr.Room) (e : m w = .ok (a, w')) (hpool : w'.mgr.poolEnd = w.mgr.poolEnd)
    (hlt : w'.mgr.next < w'.mgr.poolEnd) : w'.mgr.autoReorder = false ∧ m w.on = .ok (a, w'.on) := by
  obtain ⟨v, hv, rfl, -, h⟩ := (hm.run w.on rfl).2 a w' (by rw [World.on_off ha]; exact e)
  obtain ⟨-, -, h⟩ := h hpool hr
  obtain ⟨-, h⟩ := h hd hlt
  exact ⟨rfl, by rw [World.off_on hv]; exact h⟩

theorem PoolInv.room {s : Mgr} (h : PoolInv s) : s.Room := by
  have := h.avail_eq
  have := h.le
  unfold Mgr.Room
  omega

/-- The converse of `execAll_auto`, if the pool is not used up. -/
theorem execAll_on (hc : Extends c) {w : World} (ha : w.mgr.autoReorder = false)
    (hd : w.mgr.deferred = false) (hr : w.mgr.Room) {ks : List Call} (hk : ∀ k ∈ ks, k.noAuto = true)
    {os : List Out} {w' : World} (e : execAll c ks w = .ok (os, w')) (hpool : w'.mgr.poolEnd = w.mgr.poolEnd)
    (hlt : w'.mgr.next < w'.mgr.poolEnd) :
    execAll c (.setAutoReorder true :: (ks ++ [.setAutoReorder false])) w = .ok (.unit :: (os ++ [.unit]), w') := by
  obtain ⟨ha', h⟩ := (execAll_flagless ks hk).on_of ha hd hr e hpool hlt
  have e1 : exec c (.setAutoReorder true) w = .ok (.unit, w.on) := rfl
  have e3 : execAll c [.setAutoReorder false] w'.on = .ok ([.unit], w'.on.off) := rfl
  rw [World.on_off ha'] at e3
  rw [execAll, SM.bind_ok e1, SM.bind_run, execAll_append, SM.bind_ok h, SM.bind_ok e3]
  rfl

end Teddy

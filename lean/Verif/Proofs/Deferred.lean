import Verif.Proofs.Reorder
import Verif.Proofs.Transform

/-!
# The reordering that was left for later

With automatic reordering on, `make_new_node` extends an exhausted pool and remembers that the variables should be
reordered; `run_deferred` does it: garbage is collected, the apply cache is cleared and the variables are sifted.
The cache stays empty during sifting, so it is still correct for the new order.
-/

namespace Teddy

open SM

/-- No entry in the apply cache. -/
def Mgr.noCache (s : Mgr) : Prop := s.cache.All fun _ => False

/-- An action that leaves an empty cache empty. -/
class Uncached {α : Type} (m : M α) : Prop where
  run : ∀ s a t, m s = .ok (a, t) → s.noCache → t.noCache

namespace Uncached

variable {α β τ : Type}

instance instPure (a : α) : Uncached (Pure.pure a : M α) where
  run s b t e h := by cases e; exact h

instance instThrow (e : Err) : Uncached (throw e : M α) where
  run _ _ _ h := nomatch h

theorem bind {m : M α} {f : α → M β} (hm : Uncached m) (hf : ∀ a, Uncached (f a)) : Uncached (m >>= f) where
  run s b u e h := by
    rw [SM.bind_run] at e
    cases em : m s with
    | error err => rw [em] at e; cases e
    | ok r =>
      obtain ⟨a, t⟩ := r
      rw [em] at e
      exact (hf a).run t b u e (hm.run s a t em h)

theorem bindGet {f : Mgr → M β}
    (h : ∀ s : Mgr, s.noCache → ∀ b t, f s s = .ok (b, t) → t.noCache) : Uncached (get >>= f) where
  run s b u e hs := by
    rw [SM.bind_ok (SM.get_run s)] at e
    exact h s hs b u e

theorem getBind {f : Mgr → M β} (h : ∀ s, Uncached (f s)) : Uncached (get >>= f) :=
  bindGet fun s hs b t e => (h s).run s b t e hs

theorem modify {g : Mgr → Mgr} (h : ∀ s : Mgr, s.noCache → (g s).noCache) :
    Uncached (modify g : M PUnit) where
  run s b u e hs := by cases e; exact h s hs

theorem set {s t : Mgr} (h : t.cache = s.cache) {a : PUnit} {u : Mgr}
    (e : (set t : M PUnit) s = .ok (a, u)) (hs : s.noCache) : u.noCache := by
  cases e
  unfold Mgr.noCache
  rw [h]
  exact hs

theorem setBind {s t : Mgr} {f : PUnit → M β} (h : Uncached (f ⟨⟩)) (ht : t.noCache) {b : β} {u : Mgr}
    (e : ((MonadStateOf.set t : M PUnit) >>= f) s = .ok (b, u)) : u.noCache :=
  h.run t b u e ht

theorem ite {p : Prop} [Decidable p] {m m' : M α} (h : Uncached m) (h' : Uncached m') :
    Uncached (if p then m else m') := by
  split <;> assumption

theorem forL {f : α → M Unit} (h : ∀ a, Uncached (f a)) (l : List α) : Uncached (forL f l) := by
  induction l with
  | nil => exact instPure _
  | cons a l ih => exact bind (h a) fun _ => ih

theorem mapL {f : α → M β} (h : ∀ a, Uncached (f a)) (l : List α) : Uncached (mapL f l) := by
  induction l with
  | nil => exact instPure _
  | cons a l ih => exact bind (h a) fun _ => bind ih fun _ => instPure _

end Uncached

/-- Take an action apart. -/
macro "uncached" : tactic => `(tactic| repeat' (first
  | with_reducible assumption
  | with_reducible infer_instance
  | with_reducible refine Uncached.getBind (fun _ => ?_)
  | with_reducible refine Uncached.bind ?_ (fun _ => ?_)
  | exact Uncached.modify (fun _ h => h)
  | with_reducible refine Uncached.ite ?_ ?_
  | with_reducible refine Uncached.forL (fun _ => ?_) _
  | with_reducible refine Uncached.mapL (fun _ => ?_) _
  | split
  | dsimp only))

open Uncached

section
variable {c : Cfg}

instance (p : Ptr) : Uncached (chkUsed p) := by unfold chkUsed; uncached
instance (p : Ptr) : Uncached (getKind p) := by unfold getKind; uncached
instance (p : Ptr) : Uncached (setMarked p) := by unfold setMarked; uncached
instance (p : Ptr) : Uncached (setNotMarked p) := by unfold setNotMarked; uncached
instance (p : Ptr) : Uncached (incRef p) := by unfold incRef; uncached

instance (p : Ptr) : Uncached (decRef p) := by
  unfold decRef
  refine Uncached.bind inferInstance fun _ => Uncached.bindGet fun s hs b t e => ?_
  split at e
  · cases e
  · exact Uncached.set rfl e hs

instance : Uncached mallocSons := by
  unfold mallocSons
  exact Uncached.bindGet fun s hs b t e => by cases e; exact hs

instance (a : Nat) : Uncached (freeSons a) := by
  unfold freeSons
  refine Uncached.bindGet fun s hs b t e => ?_
  split at e
  · exact Uncached.set rfl e hs
  · cases e

instance (p : Ptr) : Uncached (nodeDtor p) := by unfold nodeDtor; uncached
instance (p : Ptr) (k : Kind) : Uncached (nodeCtor p k) := by unfold nodeCtor; uncached
instance (p : Ptr) (i : Nat) (l : List Ptr) : Uncached (setSons p i l) := by
  unfold setSons; uncached

instance (k : Kind) : Uncached (poolCreate k) := by
  unfold poolCreate
  refine Uncached.bindGet fun s hs b t e => ?_
  split at e
  · cases e
  · split at e
    · split at e
      · dsimp only at e
        refine @Uncached.setBind _ _ _ _ ?_ ?_ _ _ e
        · exact Uncached.bind inferInstance fun _ => Uncached.bind inferInstance fun _ => instPure _
        · exact hs
      · cases e
    · split at e
      · dsimp only at e
        refine @Uncached.setBind _ _ _ _ ?_ ?_ _ _ e
        · exact Uncached.bind inferInstance fun _ => instPure _
        · exact hs
      · cases e

instance (p : Ptr) : Uncached (poolDestroy p) := by unfold poolDestroy; uncached
instance (p : Ptr) : Uncached (getLevel c p) := by unfold getLevel; uncached
instance (l : Nat) : Uncached (getIndex c l) := by unfold getIndex; uncached

instance (p : Ptr) : Uncached (deleteNode p) := by
  unfold deleteNode
  refine Uncached.bind inferInstance fun _ => Uncached.bindGet fun s hs b t e => ?_
  split at e
  · cases e
  · exact (inferInstance : Uncached (poolDestroy p)).run
      { s with nodeCount := s.nodeCount - 1, used := upd s.used p false } b t e hs

instance (f : Links → Except Err Links) : Uncached (onLinks f) := by
  unfold onLinks
  refine Uncached.bindGet fun s hs a t e => ?_
  cases h : f s.link with
  | ok L => rw [h] at e; exact Uncached.set rfl e hs
  | error err => rw [h] at e; cases e

instance (i b : Nat) (p : Ptr) : Uncached (eraseBucket i b p) := by unfold eraseBucket; uncached

instance (i b : Nat) (p : Ptr) : Uncached (collectNode i b p) := by unfold collectNode; uncached
instance (i b f : Nat) (cur : Option Ptr) : Uncached (sweepChain i b f cur) := by
  induction f generalizing cur with
  | zero => unfold sweepChain; uncached
  | succ f ih =>
    cases cur with
    | none => unfold sweepChain; uncached
    | some p =>
      unfold sweepChain
      uncached
instance (i : Nat) : Uncached (collectTable i) := by unfold collectTable; uncached
instance (i : Nat) : Uncached (collectTerminal i) := by unfold collectTerminal; uncached
instance : Uncached collectSpecial := by unfold collectSpecial; uncached
instance : Uncached (collectGarbage c) := by unfold collectGarbage; uncached

instance : Uncached (forceGc c) := by
  unfold forceGc
  uncached
  exact Uncached.modify fun s h => Cache.All.removeUnused h _

instance : Uncached (poolGrow c) := by unfold poolGrow; uncached
instance : Uncached (adjustTables c) := by unfold adjustTables; uncached
instance : Uncached (adjustCaches c) := by
  unfold adjustCaches
  exact Uncached.modify fun s h => Cache.All.growCapacity h _ _
instance : Uncached (makeRoom c) := by unfold makeRoom; uncached
instance : Uncached (adjustAll c) := by unfold adjustAll; uncached
instance (k : Kind) : Uncached (makeNew c k) := by unfold makeNew; uncached
instance (i : Nat) (l : List Ptr) : Uncached (tableFind c i l) := by unfold tableFind; uncached
instance (i : Nat) (p : Ptr) (h : Nat) : Uncached (tableInsert i p h) := by unfold tableInsert; uncached
instance (i : Nat) (l : List Ptr) : Uncached (makeInternal c i l) := by unfold makeInternal; uncached

instance (f : Nat) (p : Ptr) : Uncached (decRefTryGc c f p) := by
  induction f generalizing p with
  | zero => unfold decRefTryGc; uncached
  | succ f ih =>
    unfold decRefTryGc
    uncached

instance (j : Nat) (p : Ptr) (k : Nat) : Uncached (cofactorEntry j p k) := by unfold cofactorEntry; uncached
instance (p : Ptr) : Uncached (swapNodeWithNext c p) := by unfold swapNodeWithNext; uncached

instance (body : Ptr → M Unit) [∀ p, Uncached (body p)] (f : Nat) (cur : Option Ptr) :
    Uncached (walkChain body f cur) := by
  induction f generalizing cur with
  | zero => unfold walkChain; uncached
  | succ f ih =>
    cases cur with
    | none => unfold walkChain; uncached
    | some p =>
      unfold walkChain
      uncached

instance (i : Nat) : Uncached (swapVariableWithNext c i) := by
  unfold swapVariableWithNext
  refine Uncached.bindGet fun s hs a t e => ?_
  dsimp only at e
  by_cases hl : 1 + s.idx2lvl i < c.n
  · have e1 : getIndex c (1 + s.idx2lvl i) s = .ok (s.lvl2idx (1 + s.idx2lvl i), s) := by
      unfold getIndex
      rw [SM.bind_ok (SM.get_run s), if_pos hl]; rfl
    rw [SM.bind_ok e1] at e
    refine Uncached.setBind ?_ ?_ e
    · uncached
    · exact hs
  · have e1 : getIndex c (1 + s.idx2lvl i) s = .error .outOfRange := by
      unfold getIndex
      rw [SM.bind_ok (SM.get_run s), if_neg hl]; rfl
    rw [SM.bind_run, e1] at e
    cases e

instance (i f : Nat) (pl : Place) : Uncached (siftDownVar c i f pl) := by
  induction f generalizing pl with
  | zero => unfold siftDownVar; uncached
  | succ f ih =>
    unfold siftDownVar
    uncached
instance (i : Nat) : Uncached (moveVarUp c i) := by unfold moveVarUp; uncached
instance (i f : Nat) (pl : Place) : Uncached (siftUpVar c i f pl) := by
  induction f generalizing pl with
  | zero => unfold siftUpVar; uncached
  | succ f ih =>
    unfold siftUpVar
    uncached
instance (i o f l : Nat) : Uncached (siftRestore c i o f l) := by
  induction f generalizing l with
  | zero => unfold siftRestore; uncached
  | succ f ih =>
    unfold siftRestore
    uncached
instance (i : Nat) : Uncached (placeVariable c i) := by unfold placeVariable; uncached
instance : Uncached (siftVariables c) := by unfold siftVariables; uncached

end

section
variable {E : Env} {ext : Ptr → Nat} {s : Mgr}

/-- Running the reordering that may be due keeps everything but canonicity, and the functions of the handles. -/
theorem runDeferred_any (g : Good E ext s) :
    Ok (runDeferred E.c) s (fun _ s' => Good { E with canon := false } ext s' ∧
      (∀ p, 0 < ext p → ∀ x, Valid E.c x → ∀ v, Ev s.kind x p v → Ev s'.kind x p v) ∧
      ∀ p, s'.mark p = true → s.mark p = true) := by
  cases hd : s.deferred with
  | false =>
      exact Ok.of_eq (runDeferred_ok hd _) ⟨⟨g.cfg, g.inv, g.ord, g.pool, g.auto, g.defer, g.pool0,
        (fun h => nomatch h), g.cache⟩, fun _ _ _ _ _ h => h, fun _ h => h⟩
  | true =>
      unfold runDeferred
      refine Ok.bindGet ?_
      rw [if_pos hd]
      refine Ok.bind (collectGarbage_spec g.inv) ?_
      rintro _ s1 ⟨h1, g1, _⟩
      refine Ok.bindMod ?_
      have hi : Inv E.c ext [] { s1 with cache := s1.cache.clear } :=
        h1.of_eq rfl rfl rfl rfl rfl rfl rfl rfl rfl rfl rfl rfl rfl rfl
      have ho : Ordered E.c { s1 with cache := s1.cache.clear } := by
        intro p i ss q hu hk hq
        have hk' : s.kind p = .inner i ss := by rw [← g1.kind]; exact hk
        have := g.ord p i ss q (g1.usedSub p hu) hk' hq
        unfold Mgr.levelOf at this ⊢
        dsimp only
        rw [g1.kind, g1.i2l]
        exact this
      have hp : PoolOK E.c { s1 with cache := s1.cache.clear } :=
        ⟨g.pool.extra, by rw [g1.gcRatio]; exact g.pool.den,
          by rw [g1.gcRatio, g1.poolEnd]; exact g.pool.thr⟩
      obtain ⟨⟨⟩, s2, e, h2, hdf, sw⟩ := siftVariables_spec ⟨hi, ho, hp⟩ g.cfg.dom_pos
      have hc : s2.noCache := Uncached.run (m := siftVariables E.c) _ _ _ e (fun i e he => by cases he)
      refine ⟨(), s2, e, ⟨g.cfg, h2.inv, h2.ord, h2.pool, ?_, fun _ => hdf, ?_, (fun h => nomatch h), ?_⟩, ?_, ?_⟩
      · intro h
        rw [sw.auto, show _ = s.autoReorder from g1.auto]
        exact g.auto h
      · exact g.pool0.trans (by rw [← g1.poolEnd]; exact sw.poolEnd)
      · intro _ i e he
        exact (hc i e he).elim
      · intro p hp x hx v hv
        refine sw.ev p hp x hx v ?_
        rw [show _ = s.kind from g1.kind]
        exact hv
      · intro p h
        rw [← g1.mark]
        exact sw.mark p h

end

end Teddy

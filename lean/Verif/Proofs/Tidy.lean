import Verif.ReleaseSpec
import Verif.Proofs.Destroy
import Verif.Proofs.Reduce

/-!
# Memory in every run

Nothing is assumed about the calls here: they may be given wrong arguments, use the manager with automatic
reordering on, and end in one of the errors of the model.  `Tidy c m` says that the action `m` keeps the
allocated memory in order and releases nothing twice.
-/

namespace Teddy

/-- The memory and the counters of the pool are in order. -/
structure Sound (c : Cfg) (s : Mgr) : Prop where
  mem : MemOK c s.kind s.next s.poolEnd s.mem
  avail : s.avail = s.free.length + (s.poolEnd - s.next)
  le : s.next ≤ s.poolEnd
  free : ∀ p ∈ s.free, p < s.next
  used : ∀ p, s.used p = true → p < s.next
  heap : HeapOK c.n s.heap

/-- What may come of an action started in a state with its memory in order. -/
def TidyRes {α : Type} (c : Cfg) (r : Except Err (α × Mgr)) : Prop :=
  match r with
  | .ok (_, t) => Sound c t
  | .error e => e.tame

/-- An action that keeps the memory in order. -/
class Tidy {α : Type} (c : Cfg) (m : M α) : Prop where
  run : ∀ s, Sound c s → TidyRes c (m s)

namespace Tidy

variable {α β τ : Type} {c : Cfg}

instance instPure (a : α) : Tidy c (Pure.pure a : M α) where
  run _ h := h

theorem throw {e : Err} (h : e.tame) : Tidy c (throw e : M α) where
  run _ _ := h

theorem res_bind {m : M α} {f : α → M β} {s : Mgr} (hm : TidyRes c (m s)) (hf : ∀ a, Tidy c (f a)) :
    TidyRes c ((m >>= f) s) := by
  rw [SM.bind_run]
  cases em : m s with
  | error err => rw [em] at hm; exact hm
  | ok r =>
    obtain ⟨a, t⟩ := r
    rw [em] at hm
    exact (hf a).run t hm

theorem bind {m : M α} {f : α → M β} (hm : Tidy c m) (hf : ∀ a, Tidy c (f a)) : Tidy c (m >>= f) where
  run s h := res_bind (hm.run s h) hf

theorem bindGet {f : Mgr → M β} (h : ∀ s, Sound c s → TidyRes c (f s s)) : Tidy c (get >>= f) where
  run s hs := by
    rw [SM.bind_ok (SM.get_run s)]
    exact h s hs

theorem getBind {f : Mgr → M β} (h : ∀ s, Tidy c (f s)) : Tidy c (get >>= f) :=
  bindGet fun s hs => (h s).run s hs

theorem modify {g : Mgr → Mgr} (h : ∀ s : Mgr, Sound c s → Sound c (g s)) :
    Tidy c (modify g : M PUnit) where
  run s hs := h s hs

theorem setBind {s t : Mgr} {f : PUnit → M β} (h : Tidy c (f ⟨⟩)) (ht : Sound c t) :
    TidyRes c (((MonadStateOf.set t : M PUnit) >>= f) s) := h.run t ht

theorem ite {p : Prop} [Decidable p] {m m' : M α} (h : Tidy c m) (h' : Tidy c m') :
    Tidy c (if p then m else m') := by
  split <;> assumption

theorem mapL {f : α → M β} (h : ∀ a, Tidy c (f a)) (l : List α) : Tidy c (mapL f l) := by
  induction l with
  | nil => exact instPure _
  | cons a l ih => exact bind (h a) fun _ => bind ih fun _ => instPure _

theorem forL {f : α → M Unit} (h : ∀ a, Tidy c (f a)) (l : List α) : Tidy c (forL f l) := by
  induction l with
  | nil => exact instPure _
  | cons a l ih => exact bind (h a) fun _ => ih

theorem foldL {f : α → τ → M τ} (h : ∀ a t, Tidy c (f a t)) (l : List α) (t : τ) :
    Tidy c (foldL f l t) := by
  induction l generalizing t with
  | nil => exact instPure _
  | cons a l ih => exact bind (h a t) fun _ => ih _

theorem mapAccL {f : α → τ → M (β × τ)} (h : ∀ a t, Tidy c (f a t)) (l : List α) (t : τ) :
    Tidy c (mapAccL f l t) := by
  induction l generalizing t with
  | nil => exact instPure _
  | cons a l ih => exact bind (h a t) fun _ => bind (ih _) fun _ => instPure _

end Tidy

/-- Only the arrays of tables and components that `Sound` does not look at have changed. -/
theorem Sound.alike {c : Cfg} {s t : Mgr} (h : Sound c s) (hk : t.kind = s.kind) (hn : t.next = s.next)
    (he : t.poolEnd = s.poolEnd) (hm : t.mem = s.mem) (ha : t.avail = s.avail) (hf : t.free = s.free)
    (hu : t.used = s.used) (hh : HeapOK c.n t.heap) : Sound c t :=
  ⟨by rw [hk, hn, he, hm]; exact h.mem, by rw [ha, hf, he, hn]; exact h.avail, by rw [hn, he]; exact h.le,
    by rw [hf, hn]; exact h.free, by rw [hu, hn]; exact h.used, hh⟩

/-- Only components that `Sound` does not look at have changed. -/
theorem Sound.same {c : Cfg} {s t : Mgr} (h : Sound c s) (hk : t.kind = s.kind) (hn : t.next = s.next)
    (he : t.poolEnd = s.poolEnd) (hm : t.mem = s.mem) (ha : t.avail = s.avail) (hf : t.free = s.free)
    (hu : t.used = s.used) (hh : t.heap = s.heap := by rfl) : Sound c t :=
  h.alike hk hn he hm ha hf hu (by rw [hh]; exact h.heap)

open Tidy SM

variable {c : Cfg}

/-- An array that is allocated and released at once. -/
theorem tempSons_tidy {α : Type} {f : M α} (h : Tidy c f) :
    Tidy c (mallocSons >>= fun a => freeSons a >>= fun _ => f) where
  run s hs := by rw [tempSons_bind]; exact h.run s hs

instance tempSons_tidy' : Tidy c (mallocSons >>= fun a => freeSons a) where
  run s hs := by rw [tempSons_run]; exact hs

/-- Take an action apart. -/
macro "tidy" : tactic => `(tactic| repeat' (first
  | with_reducible assumption
  | with_reducible infer_instance
  | with_reducible refine Tidy.getBind (fun _ => ?_)
  | with_reducible refine tempSons_tidy ?_
  | with_reducible refine Tidy.bind ?_ (fun _ => ?_)
  | exact Tidy.modify (fun _ h => Sound.same h rfl rfl rfl rfl rfl rfl rfl)
  | exact Tidy.throw ⟨nofun, nofun⟩
  | with_reducible refine Tidy.ite ?_ ?_
  | with_reducible refine Tidy.forL (fun _ => ?_) _
  | with_reducible refine Tidy.mapL (fun _ => ?_) _
  | with_reducible refine Tidy.foldL (fun _ _ => ?_) _ _
  | with_reducible refine Tidy.mapAccL (fun _ _ => ?_) _ _
  | split
  | dsimp only))

instance (p : Ptr) : Tidy c (chkUsed p) := by unfold chkUsed; tidy
instance (p : Ptr) : Tidy c (getKind p) := by unfold getKind; tidy
instance (p : Ptr) : Tidy c (setMarked p) := by unfold setMarked; tidy
instance (p : Ptr) : Tidy c (setNotMarked p) := by unfold setNotMarked; tidy
instance (p : Ptr) : Tidy c (toggleMarked p) := by unfold toggleMarked; tidy
instance (p : Ptr) : Tidy c (isMarked p) := by unfold isMarked; tidy
instance (p : Ptr) : Tidy c (incRef p) := by unfold incRef; tidy

instance (p : Ptr) : Tidy c (decRef p) := by
  unfold decRef
  refine Tidy.bind inferInstance fun _ => Tidy.bindGet fun s hs => ?_
  split
  · exact ⟨nofun, nofun⟩
  · exact Sound.same hs rfl rfl rfl rfl rfl rfl rfl

instance (p : Ptr) : Tidy c (getData p) := by unfold getData; tidy
instance (p : Ptr) (q : Rat) : Tidy c (setData p q) := by unfold setData; tidy

instance (p : Ptr) (i : Nat) (l : List Ptr) : Tidy c (setSons p i l) where
  run s hs := by
    by_cases hu : s.used p = true
    · cases hk : s.kind p with
      | leaf v =>
          unfold setSons
          have e : getKind p s = .ok (.leaf v, s) := by
            unfold getKind
            rw [bind_ok (chkUsed_ok hu), bind_ok (get_run _), hk]; rfl
          rw [bind_ok e]
          exact ⟨nofun, nofun⟩
      | inner i0 ss0 =>
          have hp := hs.used p hu
          rw [setSons_run hu hk (hs.mem.arr_mem hp hk)]
          exact ⟨hs.mem.reseat ⟨hp, _, _, hk⟩, hs.avail, hs.le, hs.free, hs.used, hs.heap⟩
    · have e : setSons p i l s = .error .useAfterFree := by
        unfold setSons
        have : getKind p s = .error .useAfterFree := by
          simp [getKind, chkUsed, bind_run, hu]; rfl
        rw [bind_run, this]
      rw [e]
      exact ⟨nofun, nofun⟩

instance (k : Kind) : Tidy c (poolCreate k) := by
  unfold poolCreate
  refine Tidy.bindGet fun s hs => ?_
  split
  · exact ⟨nofun, nofun⟩
  · rename_i ha
    cases hf : s.free with
    | cons p rest =>
        dsimp only
        by_cases hlk : s.link.next p = rest.head?
        swap
        · rw [if_neg hlk]; exact ⟨nofun, nofun⟩
        rw [if_pos hlk, bind_ok (set_run _ _)]
        have hp : p < s.next := hs.free p (by rw [hf]; simp)
        rw [bind_ok (nodeDtor_run (s := { s with avail := s.avail - 1, free := rest }) (p := p) ((hs.mem.built p).2 hp)
          fun i ss hk => hs.mem.arr_mem hp hk), bind_ok (nodeCtor_run p k)]
        refine ⟨?_, ?_, hs.le, fun q hq => hs.free q (by rw [hf]; simp [hq]), fun q hq => ?_, hs.heap⟩
        · have := hs.mem.create (p := p) (k := k) (free := p :: rest) (fr := rest) (Or.inl ⟨rfl, hp, rfl⟩)
          exact this
        · have := hs.avail
          rw [hf] at this
          simp only [List.length_cons] at this
          dsimp only
          omega
        · have hq : upd s.used p true q = true := hq
          by_cases e : q = p
          · subst e; exact hp
          · rw [upd_other _ _ e] at hq; exact hs.used q hq
    | nil =>
        dsimp only
        split
        · rename_i hlt
          rw [bind_ok (set_run _ _), bind_ok (nodeCtor_run s.next k)]
          refine ⟨?_, ?_, hlt, ?_, fun q hq => ?_, hs.heap⟩
          · have := hs.mem.create (p := s.next) (k := k) (free := []) (fr := []) (Or.inr ⟨rfl, rfl, rfl⟩)
            exact this
          · have := hs.avail
            rw [hf] at this
            simp only [List.length_nil] at this
            dsimp only
            simp only [List.length_nil]
            omega
          · intro q hq
            dsimp only at hq
            cases hq
          · have hq : upd s.used s.next true q = true := hq
            by_cases e : q = s.next
            · rw [e]; exact Nat.lt_succ_self _
            · rw [upd_other _ _ e] at hq; exact Nat.lt_succ_of_lt (hs.used q hq)
        · exact ⟨nofun, nofun⟩

instance (p : Ptr) : Tidy c (getLevel c p) := by unfold getLevel; tidy
instance (l : Nat) : Tidy c (getIndex c l) := by unfold getIndex; tidy
instance (p : Ptr) (k : Nat) : Tidy c (getSon p k) := by unfold getSon; tidy

instance (p : Ptr) : Tidy c (deleteNode p) where
  run s hs := by
    unfold deleteNode
    by_cases hu : s.used p = true
    · rw [bind_ok (chkUsed_ok hu), bind_ok (get_run _)]
      dsimp only
      split
      · exact ⟨nofun, nofun⟩
      · refine ⟨hs.mem, ?_, hs.le, ?_, fun q hq => ?_, hs.heap⟩
        · have := hs.avail
          show s.avail + 1 = s.free.length + 1 + (s.poolEnd - s.next)
          omega
        · intro q hq
          rcases List.mem_cons.1 hq with rfl | hq
          · exact hs.used _ hu
          · exact hs.free q hq
        · by_cases e : q = p
          · subst e; exact hs.used _ hu
          · exact hs.used q ((upd_other s.used false e).symm.trans hq)
    · have : chkUsed p s = .error .useAfterFree := by simp [chkUsed, bind_run, hu]; rfl
      rw [bind_run, this]
      exact ⟨nofun, nofun⟩

/-- Walks along the chains may not end or meet a null pointer; they release nothing. -/
class TameL (f : Links → Except Err Links) : Prop where
  tame : ∀ L e, f L = .error e → e.tame

namespace TameL

variable {h : Ptr → Nat}

theorem eraseWalk {p : Ptr} {L : Links} : ∀ {f : Nat} {cur : Option Ptr} {e : Err},
    Links.eraseWalk p f cur L = .error e → e.tame
  | 0, _, _, h => by cases h; exact ⟨nofun, nofun⟩
  | _ + 1, none, _, h => by cases h; exact ⟨nofun, nofun⟩
  | f + 1, some prev, _, h => by
    unfold Links.eraseWalk at h
    split at h
    · cases h
    · exact eraseWalk h

instance (fuel i b : Nat) (p : Ptr) : TameL (Links.erase fuel i b p) where
  tame L e h := by
    unfold Links.erase at h
    split at h
    · cases h
    · exact eraseWalk h

theorem relinkChain {i cap : Nat} : ∀ {f : Nat} {cur : Option Ptr} {L : Links} {e : Err},
    Links.relinkChain h i cap f cur L = .error e → e.tame
  | 0, _, _, _, h => by cases h; exact ⟨nofun, nofun⟩
  | _ + 1, none, _, _, h => by cases h
  | f + 1, some p, L, _, h => by
    unfold Links.relinkChain at h
    exact relinkChain h

theorem relinkAll {i cap fuel : Nat} {B : Nat → Option Ptr} : ∀ {bs : List Nat} {L : Links} {e : Err},
    Links.relinkAll h i cap fuel B bs L = .error e → e.tame
  | [], _, _, h => by cases h
  | b :: bs, L, _, h => by
    unfold Links.relinkAll at h
    split at h
    · exact relinkAll h
    · rename_i h1
      cases h
      exact relinkChain h1

instance adjust (i fuel : Nat) (t : Table) : TameL (Links.adjust h i t fuel) where
  tame L e h := by
    unfold Links.adjust at h
    split at h
    · exact relinkAll (L := L.clear i) h
    · cases h

instance (T : Nat → Table) (fuel : Nat) (is : List Nat) : TameL (Links.adjustAll h T fuel is) where
  tame L e h1 := by
    induction is generalizing L with
    | nil => cases h1
    | cons i is ih =>
      unfold Links.adjustAll at h1
      split at h1
      · exact ih _ h1
      · rename_i h2
        cases h1
        exact (adjust i fuel (T i)).tame L e h2

instance (i : Nat) (t o : Table) (B : Nat → Option Ptr) (fuel : Nat) : TameL (Links.merge h i t o B fuel) where
  tame L e h1 := by
    unfold Links.merge at h1
    split at h1
    · exact relinkAll h1
    · rename_i h2
      cases h1
      exact (adjust i fuel _).tame L e h2

theorem findWalk {next : Ptr → Option Ptr} {eq : Ptr → Bool} : ∀ {f : Nat} {cur : Option Ptr} {e : Err},
    Links.findWalk next eq f cur = .error e → e.tame
  | 0, _, _, h => by cases h; exact ⟨nofun, nofun⟩
  | _ + 1, none, _, h => by cases h
  | f + 1, some prev, _, h => by
    unfold Links.findWalk at h
    split at h
    · cases h
    · exact findWalk h

theorem follow {next : Ptr → Option Ptr} : ∀ {f : Nat} {cur : Option Ptr} {e : Err},
    Links.follow next f cur = .error e → e.tame
  | 0, _, _, h => by cases h; exact ⟨nofun, nofun⟩
  | _ + 1, none, _, h => by cases h
  | f + 1, some prev, _, h => by
    unfold Links.follow at h
    split at h
    · cases h
    · rename_i h1
      cases h
      exact follow h1

theorem followAll {next : Ptr → Option Ptr} {fuel : Nat} {B : Nat → Option Ptr} : ∀ {bs : List Nat} {e : Err},
    Links.followAll next fuel B bs = .error e → e.tame
  | [], _, h => by cases h
  | b :: bs, _, h => by
    unfold Links.followAll at h
    split at h
    · split at h
      · cases h
      · rename_i h1
        cases h
        exact followAll h1
    · rename_i h1
      cases h
      exact follow h1

end TameL

instance (f : Links → Except Err Links) [hf : TameL f] : Tidy c (onLinks f) := by
  unfold onLinks
  refine Tidy.bindGet fun s hs => ?_
  cases h : f s.link with
  | ok L => exact Sound.same hs rfl rfl rfl rfl rfl rfl rfl
  | error e => exact hf.tame _ _ h

instance (i b : Nat) (p : Ptr) : Tidy c (eraseBucket i b p) := by
  unfold eraseBucket
  tidy

/-! ### The sweep leaves the pool alone -/

/-- The part of the pool that was handed out, and its end, are the same. -/
def SamePool (s s' : Mgr) : Prop := s'.next = s.next ∧ s'.poolEnd = s.poolEnd

theorem SamePool.refl (s : Mgr) : SamePool s s := ⟨rfl, rfl⟩
theorem SamePool.trans (a b d : Mgr) (h1 : SamePool a b) (h2 : SamePool b d) : SamePool a d :=
  ⟨h2.1.trans h1.1, h2.2.trans h1.2⟩

theorem decRef_pool (p : Ptr) : Always (decRef p) SamePool := by
  refine afterChk ?_
  intro s b s' e
  rw [bind_run] at e
  simp only [get_run] at e
  split at e
  · cases e
  · cases e; exact ⟨rfl, rfl⟩

theorem onLinks_pool (f : Links → Except Err Links) : Always (onLinks f) SamePool := by
  intro s a s' e
  unfold onLinks at e
  rw [bind_ok (get_run _)] at e
  cases h : f s.link with
  | error x => rw [h] at e; cases e
  | ok L =>
    rw [h] at e
    cases e
    exact ⟨rfl, rfl⟩

theorem eraseBucket_pool (i b : Nat) (p : Ptr) : Always (eraseBucket i b p) SamePool :=
  Always.bindGet fun _ => Always.bind SamePool.trans (onLinks_pool _) fun _ => Always.modify fun _ => ⟨rfl, rfl⟩

theorem deleteNode_pool (p : Ptr) : Always (deleteNode p) SamePool := by
  refine afterChk ?_
  intro s a s' e
  rw [bind_run] at e
  simp only [get_run] at e
  split at e
  · cases e
  · cases e
    exact ⟨rfl, rfl⟩

theorem collectNode_pool (i b : Nat) (p : Ptr) : Always (collectNode i b p) SamePool := by
  refine afterChk (Always.bindGet fun s => ?_)
  split
  · exact Always.bind SamePool.trans (Always.forL SamePool.refl SamePool.trans decRef_pool _)
      fun _ => Always.bind SamePool.trans (eraseBucket_pool i b p) fun _ => deleteNode_pool p
  · exact Always.pure SamePool.refl

theorem sweepChain_pool (i b : Nat) : ∀ f cur, Always (sweepChain i b f cur) SamePool
  | 0, _ => Always.throw
  | _ + 1, none => Always.pure SamePool.refl
  | f + 1, some p => Always.bindGet fun _ => Always.bind SamePool.trans (collectNode_pool i b p) fun _ =>
      sweepChain_pool i b f _

theorem collectGarbage_pool (c : Cfg) : Always (collectGarbage c) SamePool := by
  refine Always.bind SamePool.trans (Always.forL SamePool.refl SamePool.trans (fun level => ?_) _) fun _ =>
    Always.bindGet fun s => Always.bind SamePool.trans
      (Always.forL SamePool.refl SamePool.trans (fun v => ?_) _) fun _ => ?_
  · refine Always.bindGet fun s => Always.bindGet fun s => ?_
    exact Always.forL SamePool.refl SamePool.trans (fun b => Always.bindGet fun s =>
      sweepChain_pool _ b _ _) _
  · refine Always.bindGet fun s => ?_
    split
    · refine afterChk ?_
      split
      · exact Always.bind SamePool.trans (deleteNode_pool _) fun _ => Always.modify fun _ => ⟨rfl, rfl⟩
      · exact Always.pure SamePool.refl
    · exact Always.pure SamePool.refl
  · refine Always.bindGet fun s => ?_
    split
    · refine afterChk ?_
      split
      · exact Always.bind SamePool.trans (deleteNode_pool _) fun _ => Always.modify fun _ => ⟨rfl, rfl⟩
      · exact Always.pure SamePool.refl
    · exact Always.pure SamePool.refl

theorem forceGc_pool (c : Cfg) : Always (forceGc c) SamePool :=
  Always.bind SamePool.trans (collectGarbage_pool c) fun _ => Always.modify fun _ => ⟨rfl, rfl⟩

/-! ### Creating nodes -/

instance (i b : Nat) (p : Ptr) : Tidy c (collectNode i b p) := by unfold collectNode; tidy
instance (i b f : Nat) (cur : Option Ptr) : Tidy c (sweepChain i b f cur) := by
  induction f generalizing cur with
  | zero => unfold sweepChain; tidy
  | succ f ih =>
    cases cur with
    | none => unfold sweepChain; tidy
    | some p =>
      unfold sweepChain
      tidy
instance (i : Nat) : Tidy c (collectTable i) := by unfold collectTable; tidy
instance (i : Nat) : Tidy c (collectTerminal i) := by unfold collectTerminal; tidy
instance : Tidy c collectSpecial := by unfold collectSpecial; tidy
instance : Tidy c (collectGarbage c) := by unfold collectGarbage; tidy
instance : Tidy c (forceGc c) := by unfold forceGc; tidy
instance : Tidy c (adjustTables c) := by
  unfold adjustTables
  refine Tidy.getBind fun s => Tidy.bind inferInstance fun _ => ?_
  exact Tidy.modify fun s h => Sound.alike h rfl rfl rfl rfl rfl rfl rfl
    (h.heap.rehashAll (fun i => (s.tables i).grows) _)
instance : Tidy c (adjustCaches c) := by
  unfold adjustCaches
  exact Tidy.modify fun s h => Sound.alike h rfl rfl rfl rfl rfl rfl rfl (h.heap.rehashCacheIf _)

theorem Sound.grow {s : Mgr} (hs : Sound c s) (he : s.next = s.poolEnd) :
    Sound c { s with
      next := s.poolEnd
      poolEnd := s.poolEnd + c.extra
      avail := s.avail + c.extra
      mem := { s.mem with pools := (s.poolEnd, c.extra) :: s.mem.pools } } := by
  refine ⟨hs.mem.grow he, ?_, Nat.le_add_right _ _, fun p hp => ?_, fun p hp => ?_, hs.heap⟩
  · have := hs.avail
    dsimp only
    omega
  · exact Nat.lt_of_lt_of_le (hs.free p hp) hs.le
  · exact Nat.lt_of_lt_of_le (hs.used p hp) hs.le

/-- The pool grows only when all of it has been handed out. -/
instance : Tidy c (makeRoom c) where
  run s hs := by
    unfold makeRoom
    rw [bind_ok (get_run s)]
    dsimp only
    have full : s.avail = 0 → s.next = s.poolEnd := by
      have := hs.avail
      have := hs.le
      omega
    split
    · split
      · rename_i ha
        exact (hs.grow (full ha)).same rfl rfl rfl rfl rfl rfl rfl
      · exact hs
    · split
      · rename_i ha
        rw [bind_run]
        have h1 : TidyRes c (forceGc c s) := Tidy.run s hs
        cases e : forceGc c s with
        | error err => rw [e] at h1; exact h1
        | ok r =>
            obtain ⟨a, t⟩ := r
            rw [e] at h1
            obtain ⟨e1, e2⟩ := forceGc_pool c s a t e
            dsimp only
            rw [bind_ok (get_run t)]
            split
            · exact Sound.grow h1 (by rw [e1, e2]; exact full ha)
            · exact h1
      · exact hs

instance : Tidy c (adjustAll c) := by unfold adjustAll; tidy
instance (k : Kind) : Tidy c (makeNew c k) := by unfold makeNew; tidy
instance : Tidy c (makeSpecial c) := by unfold makeSpecial; tidy
instance (v : Int) : Tidy c (assertTerminal c v) := by unfold assertTerminal; tidy
instance (v : Int) : Tidy c (makeTerminal c v) := by unfold makeTerminal; tidy
instance (i : Nat) (l : List Ptr) : Tidy c (tableFind c i l) := by
  unfold tableFind
  refine Tidy.bindGet fun s hs => ?_
  cases h : Links.findWalk s.link.next (fun p => s.sonsOf p == l) (s.next + 1)
    (s.link.head i (c.hash l % (s.tables i).cap)) with
  | ok r => exact hs
  | error e => exact TameL.findWalk h
instance (i : Nat) (p : Ptr) (h : Nat) : Tidy c (tableInsert i p h) := by unfold tableInsert; tidy
instance (i : Nat) (l : List Ptr) : Tidy c (makeInternal c i l) := by
  unfold makeInternal; tidy

/-! ### Cache and traversals -/

instance (op : Nat) (b : Bool) (l r : Ptr) : Tidy c (cacheFind c op b l r) := by
  unfold cacheFind; tidy
instance (op : Nat) (b : Bool) (x l r : Ptr) : Tidy c (cachePut c op b x l r) := by
  unfold cachePut; tidy
instance : Tidy c cacheClear := by unfold cacheClear; tidy

theorem traversePreImpl_tidy {τ : Type} {op : Ptr → τ → M τ} (h : ∀ p t, Tidy c (op p t))
    (f : Nat) (p : Ptr) (t : τ) : Tidy c (traversePreImpl op f p t) := by
  induction f generalizing p t with
  | zero => unfold traversePreImpl; tidy
  | succ f ih =>
    unfold traversePreImpl
    refine Tidy.bind inferInstance fun _ => Tidy.bind (h _ _) fun _ => ?_
    tidy

theorem traversePostImpl_tidy {τ : Type} {op : Ptr → τ → M τ} (h : ∀ p t, Tidy c (op p t))
    (f : Nat) (p : Ptr) (t : τ) : Tidy c (traversePostImpl op f p t) := by
  induction f generalizing p t with
  | zero => unfold traversePostImpl; tidy
  | succ f ih =>
    unfold traversePostImpl
    refine Tidy.bind inferInstance fun _ => Tidy.bind ?_ fun _ => h _ _
    tidy

theorem traversePre_tidy {τ : Type} {op : Ptr → τ → M τ} (h : ∀ p t, Tidy c (op p t))
    (p : Ptr) (t : τ) : Tidy c (traversePre c op p t) :=
  Tidy.bind (traversePreImpl_tidy h _ _ _) fun _ =>
    Tidy.bind (traversePreImpl_tidy (fun _ _ => instPure _) _ _ _) fun _ => instPure _

theorem traversePost_tidy {τ : Type} {op : Ptr → τ → M τ} (h : ∀ p t, Tidy c (op p t))
    (p : Ptr) (t : τ) : Tidy c (traversePost c op p t) :=
  Tidy.bind (traversePostImpl_tidy h _ _ _) fun _ =>
    Tidy.bind (traversePostImpl_tidy (fun _ _ => instPure _) _ _ _) fun _ => instPure _

instance (p : Ptr) (l : List Ptr) (bs : Nat → List Ptr) : Tidy c (levelPushSons c p l bs) := by
  unfold levelPushSons; tidy

theorem traverseLevel_tidy {op : Ptr → M Unit} (h : ∀ p, Tidy c (op p)) (p : Ptr) :
    Tidy c (traverseLevel c op p) := by
  unfold traverseLevel
  tidy
  exact traversePreImpl_tidy (fun _ _ => instPure _) _ _ _

instance (p : Ptr) : Tidy c (nodeCountOf c p) :=
  traversePre_tidy (fun _ _ => instPure _) _ _

/-! ### Reordering -/

instance (f : Nat) (p : Ptr) : Tidy c (decRefTryGc c f p) := by
  induction f generalizing p with
  | zero => unfold decRefTryGc; tidy
  | succ f ih =>
    unfold decRefTryGc
    tidy

instance (j : Nat) (p : Ptr) (k : Nat) : Tidy c (cofactorEntry j p k) := by
  unfold cofactorEntry; tidy
instance (p : Ptr) : Tidy c (swapNodeWithNext c p) := by
  unfold swapNodeWithNext; tidy

instance (body : Ptr → M Unit) [∀ p, Tidy c (body p)] (f : Nat) (cur : Option Ptr) :
    Tidy c (walkChain body f cur) := by
  induction f generalizing cur with
  | zero => unfold walkChain; tidy
  | succ f ih =>
    cases cur with
    | none => unfold walkChain; tidy
    | some p =>
      unfold walkChain
      tidy

instance (i : Nat) : Tidy c (swapVariableWithNext c i) := by
  unfold swapVariableWithNext
  refine Tidy.bindGet fun s hs => ?_
  dsimp only
  by_cases hl : 1 + s.idx2lvl i < c.n
  · have e1 : getIndex c (1 + s.idx2lvl i) s = .ok (s.lvl2idx (1 + s.idx2lvl i), s) := by
      unfold getIndex
      rw [SM.bind_ok (SM.get_run s), if_pos hl]; rfl
    rw [SM.bind_ok e1]
    refine Tidy.setBind ?_ ?_
    · tidy
      · exact Tidy.modify fun s h => Sound.alike h rfl rfl rfl rfl rfl rfl rfl (h.heap.rehashIf _ _)
      · exact Tidy.modify fun s h => Sound.alike h rfl rfl rfl rfl rfl rfl rfl (h.heap.rehashIf _ _)
    · exact Sound.same hs rfl rfl rfl rfl rfl rfl rfl
  · have e1 : getIndex c (1 + s.idx2lvl i) s = .error .outOfRange := by
      unfold getIndex
      rw [SM.bind_ok (SM.get_run s), if_neg hl]; rfl
    rw [SM.bind_run, e1]
    exact ⟨nofun, nofun⟩

instance (i f : Nat) (pl : Place) : Tidy c (siftDownVar c i f pl) := by
  induction f generalizing pl with
  | zero => unfold siftDownVar; tidy
  | succ f ih =>
    unfold siftDownVar
    tidy
instance (i : Nat) : Tidy c (moveVarUp c i) := by unfold moveVarUp; tidy
instance (i f : Nat) (pl : Place) : Tidy c (siftUpVar c i f pl) := by
  induction f generalizing pl with
  | zero => unfold siftUpVar; tidy
  | succ f ih =>
    unfold siftUpVar
    tidy
instance (i o f l : Nat) : Tidy c (siftRestore c i o f l) := by
  induction f generalizing l with
  | zero => unfold siftRestore; tidy
  | succ f ih =>
    unfold siftRestore
    tidy
instance (i : Nat) : Tidy c (placeVariable c i) := by unfold placeVariable; tidy
instance : Tidy c (siftVariables c) := by
  unfold siftVariables
  tidy
instance : Tidy c (runDeferred c) := by unfold runDeferred; tidy

/-! ### Computations on values -/

instance {α : Type} (a : α) : TameE (.ok a : Except Err α) := ⟨nofun⟩

theorem tameE_error {α : Type} {e : Err} (h : e.tame) : TameE (.error e : Except Err α) :=
  ⟨fun _ h' => by cases h'; exact h⟩

theorem tameE_bind {α β : Type} {r : Except Err α} {f : α → Except Err β} (h : TameE r)
    (hf : ∀ a, TameE (f a)) : TameE (r >>= f) := by
  cases r with
  | ok a => exact hf a
  | error e => exact tameE_error (h.tame e rfl)

theorem tameE_ite {α : Type} {p : Prop} [Decidable p] {r r' : Except Err α} (h : TameE r) (h' : TameE r') :
    TameE (if p then r else r') := by
  split <;> assumption

/-- Take a computation apart. -/
macro "tame" : tactic => `(tactic| repeat' (first
  | with_reducible assumption
  | with_reducible infer_instance
  | exact tameE_error ⟨nofun, nofun⟩
  | with_reducible refine tameE_bind ?_ (fun _ => ?_)
  | with_reducible refine tameE_ite ?_ ?_
  | split
  | dsimp only))

instance (v : Int) : TameE (chk32 v) := by unfold chk32; tame
instance (v : Int) : TameE (fit64 v) := by unfold fit64; tame
instance (v : Int) : TameE (fit32 v) := by unfold fit32; tame
instance (n : Nat) : TameE (shl64 n) := by unfold shl64; tame
instance (f : Nat) (b : Int) (n : Nat) (a : Int) : TameE (intPowLoop fit32 f b n a) := by
  induction f generalizing b n a with
  | zero => unfold intPowLoop; tame
  | succ f ih =>
    unfold intPowLoop
    have hp : ∀ a : Int, TameE (pure a : Except Err Int) := fun a => (inferInstance : TameE (.ok a))
    tame
instance (b : Int) (n : Nat) : TameE (intPow32 b n) := by unfold intPow32; tame
instance (l : List Nat) (n : Int) : TameE (mixedProduct l n) := by
  induction l generalizing n with
  | nil => unfold mixedProduct; tame
  | cons a l ih => unfold mixedProduct; tame
instance (m : Option Nat) (l : List Nat) : TameE (domainProductOf m l) := by
  unfold domainProductOf; tame
instance (b : Bool) (k : Pla.Cube) (i : Int) : TameE (k.byteAt b i) := by unfold Pla.Cube.byteAt; tame
instance (b : Bool) (k : Pla.Cube) (i : Int) : TameE (k.get b i) := by
  unfold Pla.Cube.get
  have h : TameE (k.byteAt b i) := inferInstance
  cases e : k.byteAt b i with
  | ok a => dsimp only; infer_instance
  | error x => exact tameE_error (h.tame x e)
instance (f : Pla.File) : TameE f.functionCount := by unfold Pla.File.functionCount; tame
instance (f : Int → Int → Int) (l : List Int) : TameE (exprOp f l) := by unfold exprOp; tame

instance (op : BinOp) [h : TameOp op] (l : List Int) : TameE (op.nary l) := by
  induction l with
  | nil => unfold BinOp.nary; tame
  | cons t ts ih =>
    cases ts with
    | nil => unfold BinOp.nary; tame
    | cons u us => unfold BinOp.nary; exact tameE_bind ih fun r => h.tame t r

instance : TameOp Op.AND := ⟨fun _ _ => by unfold Op.AND; tame⟩
instance : TameOp Op.OR := ⟨fun _ _ => by unfold Op.OR; tame⟩
instance : TameOp Op.XOR := ⟨fun _ _ => by unfold Op.XOR; tame⟩
instance : TameOp Op.PI_CONJ := ⟨fun _ _ => by unfold Op.PI_CONJ; tame⟩
instance : TameOp Op.NAND := ⟨fun _ _ => by unfold Op.NAND; tame⟩
instance : TameOp Op.NOR := ⟨fun _ _ => by unfold Op.NOR; tame⟩
instance : TameOp Op.XNOR := ⟨fun _ _ => by unfold Op.XNOR; tame⟩
instance : TameOp Op.EQUAL_TO := ⟨fun _ _ => by unfold Op.EQUAL_TO; tame⟩
instance : TameOp Op.NOT_EQUAL_TO := ⟨fun _ _ => by unfold Op.NOT_EQUAL_TO; tame⟩
instance : TameOp Op.LESS := ⟨fun _ _ => by unfold Op.LESS; tame⟩
instance : TameOp Op.LESS_EQUAL := ⟨fun _ _ => by unfold Op.LESS_EQUAL; tame⟩
instance : TameOp Op.GREATER := ⟨fun _ _ => by unfold Op.GREATER; tame⟩
instance : TameOp Op.GREATER_EQUAL := ⟨fun _ _ => by unfold Op.GREATER_EQUAL; tame⟩
instance : TameOp Op.MIN := ⟨fun _ _ => by unfold Op.MIN; tame⟩
instance : TameOp Op.MAX := ⟨fun _ _ => by unfold Op.MAX; tame⟩
instance (M : Int) : TameOp (Op.MAXB M) := ⟨fun _ _ => by unfold Op.MAXB; tame⟩
instance (M : Int) : TameOp (Op.PLUS M) := ⟨fun _ _ => by unfold Op.PLUS; tame⟩
instance (M : Int) : TameOp (Op.MULTIPLIES M) := ⟨fun _ _ => by unfold Op.MULTIPLIES; tame⟩
instance : TameOp Op.IMPLIES := ⟨fun _ _ => by unfold Op.IMPLIES; tame⟩
instance (op : BinOp) [h : TameOp op] : TameOp (opType c op) := by unfold opType; tame
instance (op : BinOp) [h : TameOp op] (a b : Int) : TameE (op.fn a b) := h.tame a b

/-! ### `diagram_manager.hpp` -/

instance (p : Ptr) : Tidy c (mkDiagram p) := by unfold mkDiagram; tidy
instance (p : Ptr) : Tidy c (copyHandle p) := by unfold copyHandle; tidy
instance (p : Ptr) : Tidy c (dropHandle p) := by unfold dropHandle; tidy
instance {α : Type} (e : Except Err α) [h : TameE e] : Tidy c (liftE e : M α) := by
  unfold liftE
  cases e with
  | ok a => exact instPure a
  | error e => exact Tidy.throw (h.tame e rfl)
instance (i : Nat) : Tidy c (getDomain c i) := by unfold getDomain; tidy
instance (v : Int) : Tidy c (constant c v) := by unfold constant; tidy
instance (i : Nat) : Tidy c (variableImpl c i) := by unfold variableImpl; tidy
instance (i : Nat) : Tidy c (variableD c i) := by unfold variableD; tidy
instance (i : Nat) : Tidy c (variableNot c i) := by unfold variableNot; tidy
instance (p : Ptr) : Tidy c (valueOrND p) := by unfold valueOrND; tidy
instance (p : Ptr) (l t k : Nat) : Tidy c (sonAtTop p l t k) := by unfold sonAtTop; tidy

instance (op : BinOp) [TameOp op] (f : Nat) (l r : Ptr) : Tidy c (applyImpl c op f l r) := by
  induction f generalizing l r with
  | zero => unfold applyImpl; tidy
  | succ f ih =>
    unfold applyImpl
    tidy
instance (op : BinOp) [TameOp op] (l r : Ptr) : Tidy c (apply c op l r) := by
  unfold apply; tidy

instance (op : List Int → Except Err Int) [∀ l, TameE (op l)] (f : Nat) (ps : List Ptr) (m : NCache) :
    Tidy c (applyNImpl c op f ps m) := by
  induction f generalizing ps m with
  | zero => unfold applyNImpl; tidy
  | succ f ih =>
    unfold applyNImpl
    tidy
instance (op : BinOp) [TameOp op] (ps : List Ptr) : Tidy c (applyN c op ps) := by
  unfold applyN; tidy

instance (op : BinOp) [TameOp op] (ps : List Ptr) (r : Ptr) :
    Tidy c (leftFoldLoop c op ps r) := by
  induction ps generalizing r with
  | nil => unfold leftFoldLoop; tidy
  | cons d ds ih =>
    unfold leftFoldLoop
    tidy
instance (op : BinOp) [TameOp op] (ps : List Ptr) : Tidy c (leftFold c op ps) := by
  unfold leftFold; tidy
instance (xs : List (Option Ptr)) (i : Nat) (p : Option Ptr) : Tidy c (assignSlot xs i p) := by
  unfold assignSlot; tidy
instance (xs : List (Option Ptr)) (i : Nat) : Tidy c (readSlot xs i) := by
  unfold readSlot; tidy
instance (op : BinOp) [TameOp op] (is : List Nat) (xs : List (Option Ptr)) :
    Tidy c (treePairs c op is xs) := by
  induction is generalizing xs with
  | nil => unfold treePairs; tidy
  | cons i is ih =>
    unfold treePairs
    tidy
instance (xs : List (Option Ptr)) (i j : Nat) : Tidy c (moveSlot xs i j) := by
  unfold moveSlot; tidy
instance (op : BinOp) [TameOp op] (n k : Nat) (xs : List (Option Ptr)) :
    Tidy c (treeSteps c op n k xs) := by
  induction n generalizing k xs with
  | zero => unfold treeSteps; tidy
  | succ n ih =>
    unfold treeSteps
    tidy
instance (op : BinOp) [TameOp op] (xs : List (Option Ptr)) : Tidy c (treeFold c op xs) := by
  unfold treeFold; tidy

instance (f : Nat) (p : Ptr) (x : Asg) : Tidy c (evalNode f p x) := by
  induction f generalizing p with
  | zero => unfold evalNode; tidy
  | succ f ih =>
    unfold evalNode
    tidy
instance (p : Ptr) (x : Asg) : Tidy c (evaluate c p x) := by unfold evaluate; tidy
instance (a b : Nat) : Tidy c (domainProduct c a b) := by unfold domainProduct; tidy
instance (v : Int) : Tidy c (assertValue c v) := by unfold assertValue; tidy
instance (v : Int) (p : Ptr) (m : Ptr → Int) : Tidy c (satCountVisit c v p m) := by
  unfold satCountVisit; tidy
instance (v : Int) (p : Ptr) : Tidy c (satisfyCount c v p) := by
  unfold satisfyCount
  tidy
  exact traversePost_tidy inferInstance _ _

theorem firstSon_tidy {t : Ptr → Asg → M (Bool × Asg)} (h : ∀ p x, Tidy c (t p x))
    (i k : Nat) (qs : List Ptr) (x : Asg) : Tidy c (firstSon t i k qs x) := by
  induction qs generalizing k x with
  | nil => unfold firstSon; tidy
  | cons q qs ih =>
    unfold firstSon
    tidy
instance (v : Int) (f : Nat) (p : Ptr) (x : Asg) : Tidy c (satOneImpl v f p x) := by
  induction f generalizing p x with
  | zero => unfold satOneImpl; tidy
  | succ f ih =>
    unfold satOneImpl
    tidy
    exact firstSon_tidy ih _ _ _ _
instance (v : Int) (p : Ptr) : Tidy c (satisfyOne c v p) := by unfold satisfyOne; tidy
instance (v : Int) (f : Nat) (p : Ptr) (l : Nat) (x : Asg) (o : List (List Nat)) :
    Tidy c (satAllImpl c v f p l x o) := by
  induction f generalizing p l x o with
  | zero => unfold satAllImpl; tidy
  | succ f ih =>
    unfold satAllImpl
    tidy
instance (v : Int) (p : Ptr) : Tidy c (satisfyAll c v p) := by unfold satisfyAll; tidy

instance (i v f : Nat) (p : Ptr) (m : Memo) : Tidy c (cofactorImpl c i v f p m) := by
  induction f generalizing p m with
  | zero => unfold cofactorImpl; tidy
  | succ f ih =>
    unfold cofactorImpl
    tidy
instance (p : Ptr) (i v : Nat) : Tidy c (getCofactor c p i v) := by
  unfold getCofactor; tidy
instance (vs : List (Nat × Nat)) (f k : Nat) (p : Ptr) (m : Memo) :
    Tidy c (cofactorsImpl c vs f k p m) := by
  induction f generalizing k p m with
  | zero => unfold cofactorsImpl; tidy
  | succ f ih =>
    unfold cofactorsImpl
    tidy
instance (p : Ptr) (vs : List (Nat × Nat)) : Tidy c (getCofactors c p vs) := by
  unfold getCofactors; tidy
instance (g : Int → Int) (f : Nat) (p : Ptr) (m : Memo) :
    Tidy c (transformImpl c g f p m) := by
  induction f generalizing p m with
  | zero => unfold transformImpl; tidy
  | succ f ih =>
    unfold transformImpl
    tidy
instance (g : Int → Int) (p : Ptr) : Tidy c (transform c g p) := by
  unfold transform; tidy
instance (p : Ptr) : Tidy c (negate c p) := by unfold negate; tidy
instance (p : Ptr) : Tidy c (reduce c p) := by unfold reduce; tidy
instance (p : Ptr) (t : (Nat → Bool) × List Nat) : Tidy c (dependencyVisit p t) := by
  unfold dependencyVisit; tidy
instance (p : Ptr) : Tidy c (dependencySet c p) := by
  unfold dependencySet
  tidy
  exact traversePre_tidy inferInstance _ _

instance (p : Ptr) (f : Nat) (x : Asg) (o : List Int) : Tidy c (toVectorLoop c p f x o) := by
  induction f generalizing x o with
  | zero => unfold toVectorLoop; tidy
  | succ f ih =>
    unfold toVectorLoop
    tidy
instance (p : Ptr) : Tidy c (toVector c p) := by unfold toVector; tidy

instance (f : Nat) (st : List Frame) : Tidy c (shrinkStack c f st) := by
  induction f generalizing st with
  | zero => unfold shrinkStack; tidy
  | succ f ih =>
    unfold shrinkStack
    tidy
instance (k : Nat) (vs : List Int) : Tidy c (readVals c k vs) := by
  induction k generalizing vs with
  | zero => unfold readVals; tidy
  | succ k ih =>
    cases vs with
    | nil => unfold readVals; tidy
    | cons v vs =>
      unfold readVals
      tidy
instance (i l f : Nat) (vs : List Int) (st : List Frame) :
    Tidy c (fromVectorLoop c i l f vs st) := by
  induction f generalizing vs st with
  | zero => unfold fromVectorLoop; tidy
  | succ f ih =>
    unfold fromVectorLoop
    tidy
instance (vs : List Int) : Tidy c (fromVector c vs) := by unfold fromVector; tidy
instance (e : Expr) : Tidy c (exprImpl c e) := by
  induction e with
  | const v => unfold exprImpl; tidy
  | var i => unfold exprImpl; tidy
  | op f l r ihl ihr => unfold exprImpl; tidy
instance (e : Expr) : Tidy c (fromExpressionTree c e) := by
  unfold fromExpressionTree; tidy
instance : Tidy c (forceGcD c) := by unfold forceGcD; tidy
instance : Tidy c (forceReorder c) := by unfold forceReorder; tidy
instance : Tidy c clearCache := by unfold clearCache; tidy
instance : Tidy c getNodeCount := by unfold getNodeCount; tidy
instance : Tidy c (getOrder c) := by unfold getOrder; tidy
instance (n d : Nat) : Tidy c (setGcRatio c n d) := by unfold setGcRatio; tidy
instance (n d : Nat) : Tidy c (setCacheRatio c n d) := by unfold setCacheRatio; tidy
instance (xs : List (Option Ptr)) : Tidy c (dropAll xs) := by
  induction xs with
  | nil => unfold dropAll; tidy
  | cons x xs ih => cases x <;> unfold dropAll <;> tidy

/-! ### `pla_file.hpp`, `reliability_manager.hpp` -/

instance (k : Pla.Cube) (i : Nat) : Tidy c (plaLiteral c k i) := by
  unfold plaLiteral; tidy
instance (k : Pla.Cube) : Tidy c (plaProduct c k) := by unfold plaProduct; tidy
instance (i : Nat) (l : Pla.Line) : Tidy c (plaLine c i l) := by
  unfold plaLine; tidy
instance (b : Bool) (l : List Ptr) : Tidy c (plaOrFold c b l) := by
  unfold plaOrFold; tidy
instance (f : Pla.File) (b : Bool) (i : Nat) : Tidy c (plaFunction c f b i) := by
  unfold plaFunction; tidy
instance (f : Pla.File) (b : Bool) : Tidy c (fromPla c f b) := by
  unfold fromPla; tidy

theorem forEachTerminal_tidy {f : Ptr → M Unit} (h : ∀ p, Tidy c (f p)) :
    Tidy c (forEachTerminal f) := by
  unfold forEachTerminal
  tidy
instance (v : Int) : Tidy c (getTerminal v) := by unfold getTerminal; tidy
instance (P : Nat → Nat → Rat) (p : Ptr) (u : Unit) : Tidy c (ntpsPostVisit P p u) := by
  unfold ntpsPostVisit; tidy
instance (vs : List Int) (P : Nat → Nat → Rat) (p : Ptr) : Tidy c (ntpsPost c vs P p) := by
  unfold ntpsPost
  tidy
  · exact forEachTerminal_tidy inferInstance
  · exact traversePost_tidy inferInstance _ _
instance (P : Nat → Nat → Rat) (p : Ptr) : Tidy c (ntpsLevelVisit P p) := by
  unfold ntpsLevelVisit; tidy
instance (P : Nat → Nat → Rat) (p : Ptr) : Tidy c (calculateProbabilities c P p) := by
  unfold calculateProbabilities
  tidy
  · exact traversePre_tidy (fun _ _ => inferInstance) _ _
  · exact forEachTerminal_tidy inferInstance
  · exact traverseLevel_tidy inferInstance _
instance (v : Int) (P : Nat → Nat → Rat) (p : Ptr) : Tidy c (calculateProbability c v P p) := by
  unfold calculateProbability; tidy
instance (φ : Int → Bool) : Tidy c (terminalValues φ) := by unfold terminalValues; tidy
instance (v : Int) (P : Nat → Nat → Rat) (p : Ptr) : Tidy c (calculateAvailability c v P p) := by
  unfold calculateAvailability; tidy
instance (v : Int) (P : Nat → Nat → Rat) (p : Ptr) :
    Tidy c (calculateUnavailability c v P p) := by
  unfold calculateUnavailability; tidy
instance (v : Int) (p : Ptr) (u : Unit) : Tidy c (satCountDataVisit c v p u) := by
  unfold satCountDataVisit; tidy
instance (v : Int) (p : Ptr) : Tidy c (satisfyCountData c v p) := by
  unfold satisfyCountData
  tidy
  exact traversePost_tidy inferInstance _ _
instance (v : Int) (p : Ptr) : Tidy c (stateFrequency c v p) := by
  unfold stateFrequency; tidy
instance (p : Ptr) (k i v : Nat) : Tidy c (dpldSon p k i v) := by unfold dpldSon; tidy
instance (vc : VarChange) (ch : Int → Int → Bool) (f : Nat) (pq : Ptr × Ptr)
    (m : DMemo) : Tidy c (dpldImpl c vc ch f pq m) := by
  induction f generalizing pq m with
  | zero => unfold dpldImpl; tidy
  | succ f ih =>
    obtain ⟨p, q⟩ := pq
    unfold dpldImpl
    tidy
instance (vc : VarChange) (ch : Int → Int → Bool) (p : Ptr) :
    Tidy c (dpld c vc ch p) := by
  unfold dpld; tidy
instance (a i : Nat) (p : Ptr) : Tidy c (undefinedExcept c a i p) := by
  unfold undefinedExcept; tidy
instance (a i f : Nat) (p : Ptr) (m : Memo) : Tidy c (toDpldEImpl c a i f p m) := by
  induction f generalizing p m with
  | zero => unfold toDpldEImpl; tidy
  | succ f ih =>
    unfold toDpldEImpl
    tidy
instance (a i : Nat) (p : Ptr) : Tidy c (toDpldE c a i p) := by
  unfold toDpldE; tidy
instance (p : Ptr) : Tidy c (structuralImportance c p) := by
  unfold structuralImportance; tidy
instance (P : Nat → Nat → Rat) (p : Ptr) : Tidy c (birnbaumImportance c P p) := by
  unfold birnbaumImportance; tidy
instance (l : List Ptr) (k : Nat) : Tidy c (sonAt l k) := by unfold sonAt; tidy
instance (v : Int) (p : Ptr) : Tidy c (isTerminalOf v p) := by unfold isTerminalOf; tidy
instance (k : Nat) (l : List Ptr) : Tidy c (mnfOnes k l) := by
  induction k generalizing l with
  | zero => unfold mnfOnes; tidy
  | succ k ih =>
    unfold mnfOnes
    tidy
instance (k : Nat) (l : List Ptr) : Tidy c (mnfZeros k l) := by
  induction k generalizing l with
  | zero => unfold mnfZeros; tidy
  | succ k ih =>
    unfold mnfZeros
    tidy
instance (f : Nat) (p : Ptr) (m : Memo) : Tidy c (toMnfImpl c f p m) := by
  induction f generalizing p m with
  | zero => unfold toMnfImpl; tidy
  | succ f ih =>
    unfold toMnfImpl
    tidy
instance (p : Ptr) : Tidy c (toMnf c p) := by unfold toMnf; tidy
instance (P : Nat → Nat → Rat) (u : Rat) (s i : Nat) (p : Ptr) :
    Tidy c (fussellVesely c P u s i p) := by
  unfold fussellVesely; tidy
instance (ch : Int → Int → Bool) (p : Ptr) (l : List VarChange) :
    Tidy c (dpldes c ch p l) := by
  unfold dpldes; tidy
instance (ch : Int → Int → Bool) (p : Ptr) (l : List VarChange) :
    Tidy c (vectorsG c ch p l) := by
  unfold vectorsG; tidy
instance (v : Int) (p : Ptr) : Tidy c (mcvs c v p) := by unfold mcvs; tidy
instance (v : Int) (p : Ptr) : Tidy c (mpvs c v p) := by unfold mpvs; tidy
instance (v : Int) (p : Ptr) : Tidy c (mpvsG c v p) := by unfold mpvsG; tidy


/-! ### Calls -/

/-- `Tidy` for a program. -/
class TidyW {α : Type} (c : Cfg) (m : SM World α) : Prop where
  run : ∀ w : World, Sound c w.mgr →
    match m w with
    | .ok (_, w') => Sound c w'.mgr
    | .error e => e.tame

namespace TidyW

variable {α β : Type}

instance instPure (a : α) : TidyW c (Pure.pure a : SM World α) where
  run _ h := h

theorem throw {e : Err} (h : e.tame) : TidyW c (throw e : SM World α) where
  run _ _ := h

theorem bind {m : SM World α} {f : α → SM World β} (hm : TidyW c m) (hf : ∀ a, TidyW c (f a)) :
    TidyW c (m >>= f) where
  run w hs := by
    rw [SM.bind_run]
    have h := hm.run w hs
    cases em : m w with
    | error err => rw [em] at h; exact h
    | ok r =>
      obtain ⟨a, t⟩ := r
      rw [em] at h
      exact (hf a).run t h

theorem getBind {f : World → SM World β} (h : ∀ w, TidyW c (f w)) : TidyW c (get >>= f) where
  run w hs := by
    rw [SM.bind_ok (SM.get_run w)]
    exact (h w).run w hs

theorem slots (g : World → List (Option Ptr)) :
    TidyW c (modify fun w => { w with slots := g w } : SM World PUnit) where
  run _ h := h

instance instOnMgr (m : M α) [h : Tidy c m] : TidyW c (onMgr m) where
  run w hs := by
    have h := h.run w.mgr hs
    unfold onMgr
    cases em : m w.mgr with
    | error err => rw [em] at h; exact h
    | ok r => obtain ⟨a, t⟩ := r; rw [em] at h; exact h

instance instRoot (a : Nat) : TidyW c (rootOf a) where
  run w hs := by
    unfold rootOf
    cases hw : w.slots[a]? with
    | none => exact ⟨nofun, nofun⟩
    | some o =>
      cases o with
      | none => exact ⟨nofun, nofun⟩
      | some p => exact hs

instance instPtr (a : Nat) : TidyW c (ptrOf a) where
  run w hs := by
    unfold ptrOf
    cases hw : w.slots[a]? with
    | none => exact ⟨nofun, nofun⟩
    | some o => exact hs

instance instPush (p : Ptr) : TidyW c (push p) where
  run _ h := h

instance instPushAll (ps : List Ptr) : TidyW c (pushAll ps) where
  run _ h := h

instance instMaking (m : M Ptr) [Tidy c m] : TidyW c (making m) :=
  bind inferInstance fun _ => inferInstance

instance instMapL (f : α → SM World β) [h : ∀ a, TidyW c (f a)] (l : List α) :
    TidyW c (mapL f l) := by
  induction l with
  | nil => exact instPure _
  | cons a l ih => exact bind (h a) fun _ => bind ih fun _ => instPure _

end TidyW

instance (op : BinOp) [TameOp op] (ps : List Ptr) : Tidy c (treeFoldCopies c op ps) := by
  unfold treeFoldCopies; tidy
instance (b : Bool) : Tidy c (setAutoReorder b) := by unfold setAutoReorder; tidy

/-- Take a call apart. -/
macro "tidyw" : tactic => `(tactic| repeat' (first
  | with_reducible assumption
  | with_reducible infer_instance
  | with_reducible refine TidyW.getBind (fun _ => ?_)
  | with_reducible refine TidyW.bind ?_ (fun _ => ?_)
  | exact TidyW.slots _
  | exact TidyW.throw ⟨nofun, nofun⟩
  | split
  | dsimp only))

theorem exec_tidy (k : Call) (hk : k.Tame) : TidyW c (exec c k) := by
  cases k <;> (try have hk : TameOp _ := hk) <;> (unfold exec; tidyw)

theorem execAll_tidy (ks : List Call) (hk : ∀ k ∈ ks, k.Tame) : TidyW c (execAll c ks) := by
  induction ks with
  | nil => unfold execAll; tidyw
  | cons k ks ih =>
    have := exec_tidy (c := c) k (hk k (by simp))
    have := ih fun k h => hk k (by simp [h])
    unfold execAll
    tidyw

/-- What the destruction of a manager leaves: one array for each call of `rehash`. -/
def Left (m : Mgr) : Prop := NodesReleased m ∧ m.heap.live.length = m.heap.rehashes

/-- Destroying the handles and the manager: all is released but the arrays left behind by `rehash`, or a handle
turns out to be broken. -/
theorem endScope_tidy (w : World) (h : Sound c w.mgr) :
    match endScope c w with
    | .ok (_, w') => Left w'.mgr
    | .error e => e.tame := by
  have hd := (TidyW.instOnMgr (c := c) (dropAll w.slots.reverse)).run w h
  have e : endScope c w = (onMgr (dropAll w.slots.reverse) >>= fun _ => onMgr (mgrDtor c)) w := rfl
  rw [e]
  cases e1 : onMgr (dropAll w.slots.reverse) w with
  | error x =>
      rw [e1] at hd
      rw [SM.bind_run, e1]
      exact hd
  | ok r =>
      obtain ⟨_, w1⟩ := r
      rw [e1] at hd
      obtain ⟨_, w', e2, q⟩ := onMgr_ok (w := w1) (Q := fun _ w' => Left w'.mgr)
        (mgrDtor_ok hd.mem hd.heap)
      rw [SM.bind_ok e1, e2]
      exact q

/-- The new manager has its memory in order. -/
theorem sound_init (c : Cfg) (pool : Nat) (order : List Nat) : Sound c (Mgr.init c pool order) :=
  ⟨⟨by simp [Mgr.init], ⟨by simp [Mgr.init], by simp [Mgr.init, IsInner], by simp [Mgr.init, IsInner],
    by simp [Mgr.init]⟩, Chain.main, by simp [Mgr.init]⟩, by simp [Mgr.init], by simp [Mgr.init],
    by simp [Mgr.init], by simp [Mgr.init], HeapOK.init _⟩

theorem lifetime_tidy (c : Cfg) (pool : Nat) (order : List Nat) {ks : List Call} (hk : ∀ k ∈ ks, k.Tame) :
    match lifetime c pool order ks with
    | .ok m => Left m
    | .error e => e.tame := by
  unfold lifetime
  cases h0 : construct c pool order with
  | error x =>
      unfold construct at h0
      split_ifs at h0 <;> cases h0 <;> exact ⟨nofun, nofun⟩
  | ok m =>
      have hm : Sound c m := by
        have : m = Mgr.init c pool order := by
          unfold construct at h0
          split_ifs at h0 <;> cases h0 <;> rfl
        rw [this]; exact sound_init c pool order
      have h1 := (execAll_tidy (c := c) ks hk).run ⟨m, []⟩ hm
      dsimp only
      cases e1 : execAll c ks ⟨m, []⟩ with
      | error x => rw [e1] at h1; exact h1
      | ok r =>
          obtain ⟨os, w⟩ := r
          rw [e1] at h1
          have h2 := endScope_tidy w h1
          dsimp only
          cases e2 : endScope c w with
          | error x => rw [e2] at h2; exact h2
          | ok r => rw [e2] at h2; exact h2

end Teddy

import Verif.Proofs.Always
import Verif.Proofs.Links
import Verif.Proofs.Mem

/-! What rewriting a node does not touch: the picture of `next_` taken when the swap was entered. -/

namespace Teddy

open SM

/-! ### Operations on pointers -/

namespace Links

variable {h : Ptr → Nat} {L L' : Links}

theorem eraseWalk_saved {p : Ptr} : ∀ {f : Nat} {cur : Option Ptr}, eraseWalk p f cur L = .ok L' →
    L'.saved = L.saved
  | 0, _, e => by cases e
  | _ + 1, none, e => by cases e
  | f + 1, some prev, e => by
    unfold eraseWalk at e
    split at e
    · cases e; rfl
    · exact eraseWalk_saved e

theorem erase_saved {fuel i b : Nat} {p : Ptr} (e : erase fuel i b p L = .ok L') : L'.saved = L.saved := by
  unfold erase at e
  split at e
  · cases e; rfl
  · exact eraseWalk_saved e

theorem relinkChain_saved {i cap : Nat} : ∀ {f : Nat} {cur : Option Ptr} {L : Links},
    relinkChain h i cap f cur L = .ok L' → L'.saved = L.saved
  | 0, _, _, e => by cases e
  | _ + 1, none, _, e => by cases e; rfl
  | f + 1, some p, L, e => by
    unfold relinkChain at e
    rw [relinkChain_saved e, insert_saved]
    rfl

theorem relinkAll_saved {i cap fuel : Nat} {B : Nat → Option Ptr} : ∀ {bs : List Nat} {L : Links},
    relinkAll h i cap fuel B bs L = .ok L' → L'.saved = L.saved
  | [], _, e => by cases e; rfl
  | b :: bs, L, e => by
    unfold relinkAll at e
    split at e
    · rename_i L1 e1
      rw [relinkAll_saved e, relinkChain_saved e1]
    · cases e

theorem adjust_saved {i fuel : Nat} {t : Table} (e : adjust h i t fuel L = .ok L') : L'.saved = L.saved := by
  unfold adjust at e
  split at e
  · exact relinkAll_saved (L := L.clear i) e
  · cases e; rfl

theorem adjustAll_saved {T : Nat → Table} {fuel : Nat} : ∀ {is : List Nat} {L : Links},
    adjustAll h T fuel is L = .ok L' → L'.saved = L.saved
  | [], _, e => by cases e; rfl
  | i :: is, L, e => by
    unfold adjustAll at e
    split at e
    · rename_i L1 e1
      rw [adjustAll_saved e, adjust_saved e1]
    · cases e

end Links

/-! ### Actions of the manager -/

/-- `m` leaves the picture as it is. -/
def SameSaved (s s' : Mgr) : Prop := s'.link.saved = s.link.saved

namespace SameSaved

theorem refl (s : Mgr) : SameSaved s s := rfl
theorem trans (a b d : Mgr) (h1 : SameSaved a b) (h2 : SameSaved b d) : SameSaved a d := Eq.trans h2 h1

variable {α β : Type}

theorem bind {m : M α} {f : α → M β} (h : Always m SameSaved) (hf : ∀ a, Always (f a) SameSaved) :
    Always (m >>= f) SameSaved := Always.bind trans h hf

theorem pure {a : α} : Always (Pure.pure a : M α) SameSaved := Always.pure refl

theorem modify {g : Mgr → Mgr} (h : ∀ s, (g s).link.saved = s.link.saved) :
    Always (_root_.modify g : M PUnit) SameSaved := Always.modify h

theorem forL {f : α → M Unit} (h : ∀ a, Always (f a) SameSaved) (l : List α) :
    Always (Teddy.forL f l) SameSaved := Always.forL refl trans h l

theorem mapL {f : α → M β} (h : ∀ a, Always (f a) SameSaved) : ∀ l, Always (Teddy.mapL f l) SameSaved
  | [] => pure
  | a :: l => bind (h a) fun _ => bind (mapL h l) fun _ => pure

/-- Reading the state and storing a variant of it. -/
theorem getSet {f : Mgr → M β} (h : ∀ s b s', f s s = .ok (b, s') → SameSaved s s') :
    Always (MonadState.get >>= f) SameSaved := fun s b s' e => h s b s' e

theorem setThen {s t : Mgr} {f : PUnit → M β} {b : β} {s' : Mgr} (ht : t.link.saved = s.link.saved)
    (hf : Always (f ⟨⟩) SameSaved) (e : ((set t : M PUnit) >>= f) s = .ok (b, s')) : SameSaved s s' :=
  Eq.trans (hf t b s' e) ht

theorem onLinks {f : Links → Except Err Links} (h : ∀ L L', f L = .ok L' → L'.saved = L.saved) :
    Always (Teddy.onLinks f) SameSaved := by
  intro s b s' e
  unfold Teddy.onLinks at e
  rw [bind_run] at e
  simp only [get_run] at e
  cases e1 : f s.link with
  | error x => rw [e1] at e; cases e
  | ok L =>
    rw [e1] at e
    cases e
    exact h _ _ e1

theorem setMarked (p : Ptr) : Always (Teddy.setMarked p) SameSaved := afterChk (modify fun _ => rfl)
theorem setNotMarked (p : Ptr) : Always (Teddy.setNotMarked p) SameSaved := afterChk (modify fun _ => rfl)
theorem incRef (p : Ptr) : Always (Teddy.incRef p) SameSaved := afterChk (modify fun _ => rfl)

theorem decRef (p : Ptr) : Always (Teddy.decRef p) SameSaved := by
  refine afterChk (getSet fun s b s' e => ?_)
  split at e
  · cases e
  · cases e; rfl

theorem getKind (p : Ptr) : Always (Teddy.getKind p) SameSaved := afterChk (Always.bindGet fun _ => pure)

theorem getIndex (c : Cfg) (l : Nat) : Always (Teddy.getIndex c l) SameSaved := by
  refine Always.bindGet fun s => ?_
  split
  · exact pure
  · exact Always.throw

theorem mallocSons : Always Teddy.mallocSons SameSaved := getSet fun s b s' e => by cases e; rfl

theorem freeSons (a : Nat) : Always (Teddy.freeSons a) SameSaved := by
  refine getSet fun s b s' e => ?_
  split at e
  · cases e; rfl
  · cases e

theorem nodeDtor (p : Ptr) : Always (Teddy.nodeDtor p) SameSaved := by
  refine Always.bindGet fun s => ?_
  split
  · split
    · exact bind (freeSons _) fun _ => modify fun _ => rfl
    · exact modify fun _ => rfl
  · exact Always.throw

theorem nodeCtor (p : Ptr) (k : Kind) : Always (Teddy.nodeCtor p k) SameSaved := by
  intro s a s' e
  rw [nodeCtor_run] at e
  cases e; rfl

theorem setSons (p : Ptr) (i : Nat) (ss : List Ptr) : Always (Teddy.setSons p i ss) SameSaved := by
  refine bind (getKind p) fun k => ?_
  cases k with
  | leaf v => exact Always.throw
  | inner j ts =>
    exact Always.bindGet fun s => bind (freeSons _) fun _ => bind mallocSons fun _ => modify fun _ => rfl

theorem poolCreate (k : Kind) : Always (Teddy.poolCreate k) SameSaved := by
  refine getSet fun s a s' e => ?_
  split at e
  · cases e
  · split at e
    · split at e
      · dsimp only at e
        exact setThen (by rfl) (bind (nodeDtor _) fun _ => bind (nodeCtor _ k) fun _ => pure) e
      · cases e
    · split at e
      · dsimp only at e
        exact setThen (by rfl) (bind (nodeCtor _ k) fun _ => pure) e
      · cases e

theorem deleteNode (p : Ptr) : Always (Teddy.deleteNode p) SameSaved := by
  refine afterChk (getSet fun s a s' e => ?_)
  split at e
  · cases e
  · cases e; rfl

theorem eraseBucket (i b : Nat) (p : Ptr) : Always (Teddy.eraseBucket i b p) SameSaved :=
  Always.bindGet fun _ => bind (onLinks fun _ _ => Links.erase_saved) fun _ => modify fun _ => rfl

theorem collectNode (i b : Nat) (p : Ptr) : Always (Teddy.collectNode i b p) SameSaved := by
  refine afterChk (Always.bindGet fun s => ?_)
  split
  · exact bind (forL decRef _) fun _ => bind (eraseBucket i b p) fun _ => deleteNode p
  · exact pure

theorem sweepChain (i b : Nat) : ∀ f cur, Always (Teddy.sweepChain i b f cur) SameSaved
  | 0, _ => Always.throw
  | _ + 1, none => pure
  | f + 1, some p => Always.bindGet fun _ => bind (collectNode i b p) fun _ => sweepChain i b f _

theorem collectGarbage (c : Cfg) : Always (Teddy.collectGarbage c) SameSaved := by
  refine bind (forL (fun level => ?_) _) fun _ => Always.bindGet fun s => bind (forL (fun v => ?_) _) fun _ => ?_
  · exact Always.bindGet fun s => Always.bindGet fun s => forL (fun b => Always.bindGet fun s => sweepChain _ _ _ _) _
  · refine Always.bindGet fun s => ?_
    split
    · refine afterChk ?_
      split
      · exact bind (deleteNode _) fun _ => modify fun _ => rfl
      · exact pure
    · exact pure
  · refine Always.bindGet fun s => ?_
    split
    · refine afterChk ?_
      split
      · exact bind (deleteNode _) fun _ => modify fun _ => rfl
      · exact pure
    · exact pure

theorem makeNew (c : Cfg) (k : Kind) : Always (Teddy.makeNew c k) SameSaved := by
  have grow : Always (poolGrow c) SameSaved := modify fun _ => rfl
  refine bind ?_ fun _ => bind ?_ fun _ => bind (modify fun _ => rfl) fun _ => poolCreate k
  · refine Always.bindGet fun s => ?_
    split
    · split
      · exact bind grow fun _ => modify fun _ => rfl
      · exact pure
    · split
      · refine bind (bind (collectGarbage c) fun _ => modify fun _ => rfl) fun _ => Always.bindGet fun s => ?_
        split
        · exact grow
        · exact pure
      · exact pure
  · refine Always.bindGet fun s => ?_
    split
    · refine bind (Always.bindGet fun s => bind (onLinks fun _ _ => Links.adjustAll_saved) fun _ =>
        modify fun _ => rfl) fun _ => bind (modify fun _ => rfl) fun _ => modify fun _ => rfl
    · exact pure

theorem makeInternal (c : Cfg) (i : Nat) (sons : List Ptr) : Always (Teddy.makeInternal c i sons) SameSaved := by
  unfold Teddy.makeInternal
  split
  · split
    · exact Always.throw
    · exact bind mallocSons fun _ => bind (freeSons _) fun _ => pure
  · refine Always.bindGet fun s => bind ?_ fun r => ?_
    · refine Always.bindGet fun s => ?_
      split
      · exact pure
      · exact Always.throw
    · cases r with
      | some e =>
        exact bind mallocSons fun _ => bind (freeSons _) fun _ => bind (forL setNotMarked _) fun _ =>
          bind (setMarked e) fun _ => pure
      | none =>
        refine bind (makeNew c _) fun p => bind (modify fun s => Links.insert_saved ..) fun _ =>
          bind (forL incRef _) fun _ => bind (forL setNotMarked _) fun _ => bind (setMarked p) fun _ => pure

theorem decRefTryGc (c : Cfg) : ∀ f p, Always (Teddy.decRefTryGc c f p) SameSaved
  | 0, _ => Always.throw
  | f + 1, p => by
    refine bind (decRef p) fun _ => Always.bindGet fun s => ?_
    split
    · split
      · exact bind (forL (decRefTryGc c f) _) fun _ => Always.bindGet fun _ =>
          bind (eraseBucket _ _ p) fun _ => deleteNode p
      · split
        · exact bind Always.throw fun _ => deleteNode p
        · exact bind (modify fun _ => rfl) fun _ => deleteNode p
    · exact pure

theorem cofactorEntry (j : Nat) (q : Ptr) (k : Nat) : Always (Teddy.cofactorEntry j q k) SameSaved := by
  refine bind (getKind q) fun kd => ?_
  cases kd with
  | leaf v => exact pure
  | inner i ss =>
    dsimp only
    split
    · split
      · exact pure
      · exact Always.throw
    · exact pure

/-- `swap_node_with_next` leaves the picture as it is. -/
theorem swapNode (c : Cfg) (p : Ptr) : Always (swapNodeWithNext c p) SameSaved := by
  refine bind (getKind p) fun k => ?_
  cases k with
  | leaf v => exact Always.throw
  | inner i ss =>
    refine Always.bindGet fun s => bind (getIndex c _) fun j =>
      bind (mapL (fun q => mapL (cofactorEntry j q) _) _) fun M => bind (mapL (fun k => ?_) _) fun O =>
      bind (setSons p j O) fun _ => bind (forL (fun q => bind (incRef q) fun _ => setNotMarked q) _) fun _ =>
      bind (forL (decRefTryGc c _) _) fun _ => bind mallocSons fun _ => freeSons _
    refine bind (mapL (fun row => ?_) _) fun _ => makeInternal c i _
    split
    · exact pure
    · exact Always.throw

end SameSaved

end Teddy

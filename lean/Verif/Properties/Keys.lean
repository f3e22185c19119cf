import Verif.KeySpec
import Verif.ProgramSpec
import Verif.Proofs.Keys
import Verif.Proofs.Shipped
import Verif.Properties.Diagrams

/-!
# C80 diagrams as keys of unordered containers, and `swap`

`std::hash` of a handle is made from the address of its root, `std::equal_to` compares addresses.  A container computes the
hash of a key once, when the key is stored, so that it must not change later.
-/

namespace Teddy.Properties

open SM Spec

variable {P : Setup} {w w' : World} {σ : SState}

/-- Handles that compare equal have equal hashes, as the containers require; in any state, and for empty handles too. -/
theorem C80_equal_hash {c : Cfg} {a b : Nat} (he : exec c (.equals a b) w = .ok (.bool true, w)) :
    ∃ n, exec c (.hashOf a) w = .ok (.nat n, w) ∧ exec c (.hashOf b) w = .ok (.nat n, w) := by
  simp only [exec, bind_run, ptrOf] at he ⊢
  cases h1 : w.slots[a]? with
  | none => rw [h1] at he; cases he
  | some p =>
      rw [h1] at he
      cases h2 : w.slots[b]? with
      | none => simp only [h2] at he; cases he
      | some q =>
          simp only [h2] at he
          have e : p = q := beq_iff_eq.1 (Out.bool.inj (Prod.mk.inj (Except.ok.inj he)).1)
          subst e
          exact ⟨_, rfl, rfl⟩

/-- No history of calls, whatever it does (collecting garbage, reordering variables, using up pools), changes the hash of a
handle that it does not assign, move, swap or destroy, or the result of comparing two such handles. -/
theorem C80_stable {c : Cfg} {ks : List Call} {os : List Out} (e : execAll c ks w = .ok (os, w')) {a : Nat}
    (ha : ∀ k ∈ ks, ¬ k.writes a) :
    (∀ o, exec c (.hashOf a) w = .ok (o, w) → exec c (.hashOf a) w' = .ok (o, w')) ∧
    ∀ b, (∀ k ∈ ks, ¬ k.writes b) → ∀ o, exec c (.equals a b) w = .ok (o, w) → exec c (.equals a b) w' = .ok (o, w') := by
  have sa := execAll_stays c a ks ha _ _ _ e
  refine ⟨fun o ho => ?_, fun b hb o ho => ?_⟩
  · simp only [exec, bind_run, ptrOf] at ho ⊢
    cases h1 : w.slots[a]? with
    | none => rw [h1] at ho; cases ho
    | some p =>
        rw [h1] at ho
        cases ho
        rw [sa p h1]
        rfl
  · have sb := execAll_stays c b ks hb _ _ _ e
    simp only [exec, bind_run, ptrOf] at ho ⊢
    cases h1 : w.slots[a]? with
    | none => rw [h1] at ho; cases ho
    | some p =>
        rw [h1] at ho
        cases h2 : w.slots[b]? with
        | none => simp only [h2] at ho; cases ho
        | some q =>
            simp only [h2] at ho
            cases ho
            simp only [sa p h1, sb q h2]
            rfl

/-- A diagram stored as a key is found again: whatever program is run after its hash has been computed, a diagram of the
same function then has the hash computed before and compares equal to the key, and a diagram of another function does
not compare equal. -/
theorem C80_lookup (hP : P.OK) (h : Reachable P w σ) (hcanon : σ.canon = true) {ks : List Call} (hks : AdmAll P σ ks)
    {a n : Nat} {f : Asg → Int} (hf : Denotes P w a f) (hn : exec P.c (.hashOf a) w = .ok (.nat n, w))
    (hw : ∀ k ∈ ks, ¬ k.writes a) :
    ∃ os w', execAll P.c ks w = .ok (os, w') ∧ Denotes P w' a f ∧
      ∀ b g, Denotes P w' b g → ∃ r, exec P.c (.equals a b) w' = .ok (.bool r, w') ∧
        (r = true ↔ SameOn P.c.n P.c.dom f g) ∧ (r = true → exec P.c (.hashOf b) w' = .ok (.nat n, w')) := by
  obtain ⟨f', hf', sf⟩ := (reachable_rel hP h).of_denotes hf
  obtain ⟨os, w', σ', e, h', hc', hfa⟩ := execAll_kept ks h hP hks hcanon hw hf'
  have hd : Denotes P w' a f := ((reachable_rel hP h').denotes hfa).congr sf
  refine ⟨os, w', e, hd, fun b g hg => ?_⟩
  obtain ⟨r, er, hr⟩ := C02_equality hP h' hc' hd hg
  refine ⟨r, er, hr, fun ht => ?_⟩
  subst ht
  obtain ⟨m, e1, e2⟩ := C80_equal_hash er
  rw [(C80_stable e hw).1 _ hn] at e1
  cases e1
  exact e2

/-- After x0 has been stored, the conjunction is destroyed, garbage is collected and x0 ∧ x0 is made. -/
example : ∃ w σ n, Reachable bdd3 w σ ∧ exec bdd3.c (.hashOf 0) w = .ok (.nat n, w) ∧
    ∃ os w', execAll bdd3.c [.drop 2, .forceGc, .apply Op.AND 0 0] w = .ok (os, w') ∧
      exec bdd3.c (.equals 0 3) w' = .ok (.bool true, w') ∧ exec bdd3.c (.hashOf 3) w' = .ok (.nat n, w') := by
  obtain ⟨w, h⟩ := bdd3_world
  have R := reachable_rel bdd3_ok h
  obtain ⟨o, en, n, rfl⟩ := asks (k := .hashOf 0) bdd3_ok h ⟨_, rfl⟩ rfl
  have hks : AdmAll bdd3 bdd3State [.drop 2, .forceGc, .apply Op.AND 0 0] := by
    have ha : ∀ {p : Prop}, p → false = false := fun _ => rfl
    refine ⟨nofun, ⟨show 2 < 3 by decide, ha⟩, nofun, ⟨trivial, ha⟩, nofun, ⟨⟨rfl, rfl, _, _, rfl, rfl, ?_⟩, ha⟩, trivial⟩
    exact opOK_AND ((bits_x (by decide) rfl).vals term1_bdd3) ((bits_x (by decide) rfl).vals term1_bdd3)
  obtain ⟨os, w', e, -, hall⟩ := C80_lookup (a := 0) bdd3_ok h rfl hks (R.denotes rfl) en
    (by simp [Call.writes])
  obtain ⟨os', w2, σ', e', -, h', hσ⟩ := execAll_outs _ h bdd3_ok hks
  rw [e] at e'
  cases e'
  have R' := reachable_rel bdd3_ok h'
  obtain ⟨r, er, hr, hh⟩ := hall 3 _ (R'.denotes (by rw [hσ]; rfl))
  have ht : r = true := hr.2 fun x hx => by
    have h0 := hx 0 (by decide)
    change x 0 < 2 at h0
    show (x 0 : Int) = Op.AND.val (x 0) (x 0)
    interval_cases x 0 <;> decide
  subst ht
  exact ⟨w, _, n, h, en, os, w', e, er, hh rfl⟩

/-- `swap(a, b)` exchanges two diagrams; the manager and all other handles stay as they are. -/
theorem C80_swap (hP : P.OK) (h : Reachable P w σ) {a b : Nat} {f g : Asg → Int} (ha : Denotes P w a f)
    (hb : Denotes P w b g) :
    ∃ w', exec P.c (.swap a b) w = .ok (.unit, w') ∧ w'.mgr = w.mgr ∧ Denotes P w' a g ∧ Denotes P w' b f ∧
      (∀ d k, d ≠ a → d ≠ b → Denotes P w d k → Denotes P w' d k) ∧
      (∀ o, exec P.c (.hashOf a) w = .ok (o, w) → exec P.c (.hashOf b) w' = .ok (o, w')) ∧
      (∀ o, exec P.c (.hashOf b) w = .ok (o, w) → exec P.c (.hashOf a) w' = .ok (o, w')) := by
  have R := reachable_rel hP h
  obtain ⟨f', hf, sf⟩ := R.of_denotes ha
  obtain ⟨g', hg, sg⟩ := R.of_denotes hb
  obtain ⟨p, hp, -⟩ := R.has a f' hf
  obtain ⟨q, hq, -⟩ := R.has b g' hg
  have e : exec P.c (.swap a b) w = .ok (.unit, { w with slots := (w.slots.set a (some q)).set b (some p) }) := by
    simp only [exec]
    rw [bind_ok (ptrOf_ok hp), bind_ok (ptrOf_ok hq)]
    rfl
  obtain ⟨o, w', e', ho, R'⟩ := sim R (k := .swap a b) ⟨hf.lt, hg.lt⟩ (by no_defer)
  rw [e] at e'
  cases e'
  have hga : (next P.c σ (.swap a b) .unit).Has a g' := by
    show ((σ.slots.set a (σ.slots[b]?.join)).set b (σ.slots[a]?.join))[a]? = _
    by_cases hab : b = a
    · subst hab
      rw [List.getElem?_set_self (by simpa using hf.lt), show σ.slots[b]? = _ from hg]
      rfl
    · rw [List.getElem?_set_ne hab, List.getElem?_set_self hf.lt, show σ.slots[b]? = _ from hg]
      rfl
  have hfb : (next P.c σ (.swap a b) .unit).Has b f' := by
    show ((σ.slots.set a (σ.slots[b]?.join)).set b (σ.slots[a]?.join))[b]? = _
    rw [List.getElem?_set_self (by simpa using hg.lt), show σ.slots[a]? = _ from hf]
    rfl
  have hlb : b < w.slots.length := lt_of_getElem?_some hq
  have hla : a < w.slots.length := lt_of_getElem?_some hp
  have hpb : ((w.slots.set a (some q)).set b (some p))[b]? = some (some p) :=
    List.getElem?_set_self (by simpa using hlb)
  have hqa : ((w.slots.set a (some q)).set b (some p))[a]? = some (some q) := by
    by_cases hab : b = a
    · subst hab
      rw [hp] at hq
      cases hq
      exact hpb
    · rw [List.getElem?_set_ne hab, List.getElem?_set_self hla]
  refine ⟨_, e, rfl, (R'.denotes hga).congr sg, (R'.denotes hfb).congr sf, ?_, ?_, ?_⟩
  · intro d k hda hdb hk
    obtain ⟨k', hk', sk⟩ := R.of_denotes hk
    exact (R'.denotes (next_stays _ _ (k := .swap a b) (a := d) (fun h : d = a ∨ d = b => h.elim hda hdb) _ hk')).congr sk
  · intro o ho
    simp only [exec] at ho ⊢
    rw [bind_ok (ptrOf_ok hp)] at ho
    cases ho
    rw [bind_ok (ptrOf_ok hpb)]
    rfl
  · intro o ho
    simp only [exec] at ho ⊢
    rw [bind_ok (ptrOf_ok hq)] at ho
    cases ho
    rw [bind_ok (ptrOf_ok hqa)]
    rfl

/-- x1 and x0 ∧ x1 are exchanged. -/
example : ∃ w σ w', Reachable bdd3 w σ ∧ exec bdd3.c (.swap 1 2) w = .ok (.unit, w') ∧
    Denotes bdd3 w' 1 (fun x => Op.AND.val (x 0) (x 1)) ∧ Denotes bdd3 w' 2 (fun x => (x 1 : Int)) := by
  obtain ⟨w, h⟩ := bdd3_world
  have R := reachable_rel bdd3_ok h
  obtain ⟨w', e, -, h1, h2, -⟩ := C80_swap (a := 1) (b := 2) bdd3_ok h (R.denotes rfl) (R.denotes rfl)
  exact ⟨w, _, w', h, e, h1, h2⟩

end Teddy.Properties

/-!
# Basic vocabulary of the model

Outcomes, the state/error monad, loops, and the constants of `types.hpp`.
-/

namespace Teddy

/-- Everything that can go wrong.  Undefined behaviour and failed assertions are distinct
outcomes of the model, never silently totalised. -/
inductive Err where
  /-- a node whose *used* bit is off (freed memory) is read or written -/
  | useAfterFree
  /-- `node_pool::create` with no slot left (node_pool.hpp:147 assert / write past the pool) -/
  | poolOverrun
  /-- null pointer dereference -/
  | nullDeref
  /-- container index out of range -/
  | outOfRange
  /-- signed integer overflow -/
  | overflow
  /-- an `assert` that is a pure check fails -/
  | assertion
  /-- `*first` on an empty range -/
  | emptyRange
  /-- floating point division by zero followed by a conversion to an integer -/
  | divZero
  /-- an indeterminate value is read -/
  | uninit
  /-- reference count decremented below zero (node.hpp:351 assert) -/
  | refUnderflow
  /-- `std::free` of an array that is not allocated (any more) -/
  | doubleFree
  /-- the destructor of a node runs on memory where no node has been constructed -/
  | unbuilt
  /-- `std::length_error` is thrown -/
  | lengthError
  /-- recursion fuel exhausted: the model's name for non-termination -/
  | fuel
  /-- `next_` of a free node is not the node the list of free nodes goes on with -/
  | badChain
deriving DecidableEq, Repr

/-- Addresses of nodes. -/
abbrev Ptr := Nat

/-- `types.hpp:14`: `~(1 << 31)`, the largest int32. -/
def Undefined : Int := 2147483647

/-- `types.hpp:15`: `Undefined - 1`. -/
def Nondetermined : Int := Undefined - 1

/-- `types.hpp:37-40`. -/
def specialToIndex (v : Int) : Int := -1 * v - 1

/-- `types.hpp:42-45`. -/
def isSpecial (v : Int) : Bool := v == Undefined

/-- Pointwise update of a map. -/
def upd {α : Type} (f : Nat → α) (i : Nat) (a : α) : Nat → α :=
  fun j => if j = i then a else f j

@[simp] theorem upd_same {α : Type} (f : Nat → α) (i : Nat) (a : α) : upd f i a i = a := by
  simp [upd]

theorem upd_other {α : Type} (f : Nat → α) {i j : Nat} (a : α) (h : j ≠ i) :
    upd f i a j = f j := by
  simp [upd, h]

theorem upd_apply {α : Type} (f : Nat → α) (i j : Nat) (a : α) :
    upd f i a j = if j = i then a else f j := rfl

/-- An assignment: value of each variable, by variable index. -/
abbrev Asg := Nat → Nat

/-- State + errors. -/
abbrev SM (σ α : Type) := StateT σ (Except Err) α

namespace SM

/-- Total correctness: from `s` the computation ends normally in a state satisfying `Q`. -/
def Ok {σ α : Type} (m : SM σ α) (s : σ) (Q : α → σ → Prop) : Prop :=
  ∃ a s', m s = .ok (a, s') ∧ Q a s'

variable {σ α β : Type}

theorem Ok.mono {m : SM σ α} {s : σ} {Q R : α → σ → Prop} (h : Ok m s Q)
    (hqr : ∀ a s', Q a s' → R a s') : Ok m s R := by
  obtain ⟨a, s', e, q⟩ := h
  exact ⟨a, s', e, hqr _ _ q⟩

theorem Ok.bind {m : SM σ α} {f : α → SM σ β} {s : σ} {Q : α → σ → Prop} {R : β → σ → Prop}
    (h : Ok m s Q) (hf : ∀ a s', Q a s' → Ok (f a) s' R) : Ok (m >>= f) s R := by
  obtain ⟨a, s', e, q⟩ := h
  obtain ⟨b, s'', e', r⟩ := hf a s' q
  exact ⟨b, s'', by simp [Bind.bind, StateT.bind, e, Except.bind, e'], r⟩

theorem Ok.pure {a : α} {s : σ} {Q : α → σ → Prop} (h : Q a s) :
    Ok (Pure.pure a : SM σ α) s Q :=
  ⟨a, s, rfl, h⟩

theorem Ok.get {s : σ} {Q : σ → σ → Prop} (h : Q s s) : Ok (MonadState.get : SM σ σ) s Q :=
  ⟨s, s, rfl, h⟩

theorem Ok.modify {s : σ} {g : σ → σ} {Q : PUnit → σ → Prop} (h : Q ⟨⟩ (g s)) :
    Ok (_root_.modify g : SM σ PUnit) s Q :=
  ⟨⟨⟩, g s, rfl, h⟩

/-- If a computation is known to equal a result, it is `Ok`. -/
theorem Ok.of_eq {m : SM σ α} {s s' : σ} {a : α} {Q : α → σ → Prop}
    (e : m s = .ok (a, s')) (h : Q a s') : Ok m s Q := ⟨a, s', e, h⟩

theorem Ok.elim {m : SM σ α} {s : σ} {Q : α → σ → Prop} (h : Ok m s Q)
    {a : α} {s' : σ} (e : m s = .ok (a, s')) : Q a s' := by
  obtain ⟨b, t, e', q⟩ := h
  rw [e] at e'
  cases e'
  exact q

theorem bind_run (m : SM σ α) (f : α → SM σ β) (s : σ) :
    (m >>= f) s = (match m s with
      | .ok (a, s') => f a s'
      | .error e => .error e) := by
  simp only [Bind.bind, StateT.bind, Except.bind]
  split <;> simp_all

theorem bind_ok {m : SM σ α} {f : α → SM σ β} {s s' : σ} {a : α}
    (e : m s = .ok (a, s')) : (m >>= f) s = f a s' := by
  simp [bind_run, e]

theorem Ok.bindEq {m : SM σ α} {f : α → SM σ β} {s s' : σ} {a : α} {R : β → σ → Prop}
    (e : m s = .ok (a, s')) (h : Ok (f a) s' R) : Ok (m >>= f) s R := by
  obtain ⟨b, t, e', r⟩ := h
  exact ⟨b, t, by rw [bind_ok e]; exact e', r⟩

theorem Ok.bindGet {f : σ → SM σ β} {s : σ} {R : β → σ → Prop}
    (h : Ok (f s) s R) : Ok (MonadState.get >>= f) s R := Ok.bindEq rfl h

theorem Ok.bindMod {g : σ → σ} {f : PUnit → SM σ β} {s : σ} {R : β → σ → Prop}
    (h : Ok (f ⟨⟩) (g s) R) : Ok (_root_.modify g >>= f) s R := Ok.bindEq rfl h

@[simp] theorem pure_run (a : α) (s : σ) : (Pure.pure a : SM σ α) s = .ok (a, s) := rfl

@[simp] theorem get_run (s : σ) : (MonadState.get : SM σ σ) s = .ok (s, s) := rfl

@[simp] theorem modify_run (g : σ → σ) (s : σ) :
    (_root_.modify g : SM σ PUnit) s = .ok (⟨⟩, g s) := rfl

@[simp] theorem set_run (s s' : σ) : (set s' : SM σ PUnit) s = .ok (⟨⟩, s') := rfl

end SM

/-- `for (x : l) sons.push_back(f(x))`. -/
def mapL {σ α β : Type} (f : α → SM σ β) : List α → SM σ (List β)
  | [] => pure []
  | a :: l => do
      let b ← f a
      let bs ← mapL f l
      pure (b :: bs)

/-- `for (x : l) f(x)`. -/
def forL {σ α : Type} (f : α → SM σ Unit) : List α → SM σ Unit
  | [] => pure ()
  | a :: l => do
      f a
      forL f l

/-- `mapL` with a local accumulator (a memo table captured by reference). -/
def mapAccL {σ α β τ : Type} (f : α → τ → SM σ (β × τ)) : List α → τ → SM σ (List β × τ)
  | [], t => pure ([], t)
  | a :: l, t => do
      let (b, t1) ← f a t
      let (bs, t2) ← mapAccL f l t1
      pure (b :: bs, t2)

/-- A loop with a local accumulator. -/
def foldL {σ α τ : Type} (f : α → τ → SM σ τ) : List α → τ → SM σ τ
  | [], t => pure t
  | a :: l, t => do
      let t1 ← f a t
      foldL f l t1

end Teddy

import Verif.Arith
import Verif.ApiSpec
import Mathlib.Algebra.BigOperators.Group.List.Basic
import Mathlib.Tactic.Ring
import Mathlib.Tactic.Linarith

/-! Integer powers and domain products. -/

namespace Teddy

theorem fit32_ok {v : Int} (h0 : 0 ≤ v) (h : v ≤ 2147483647) : fit32 v = .ok v := by
  unfold fit32
  rw [if_pos ⟨by omega, h⟩]

theorem fit64_ok {v : Int} (h0 : 0 ≤ v) (h : v ≤ 9223372036854775807) : fit64 v = .ok v := by
  unfold fit64
  rw [if_pos ⟨by omega, h⟩]

theorem intPowLoop_ok {fit : Int → Except Err Int} {lim : Nat}
    (hfit : ∀ v : Nat, v ≤ lim → fit (v : Int) = .ok (v : Int)) :
    ∀ (f : Nat) (b : Nat) (e : Nat) (r : Nat), 1 ≤ b → 1 ≤ r → e < f → r * b ^ e ≤ lim →
      intPowLoop fit f (b : Int) e (r : Int) = .ok ((r * b ^ e : Nat) : Int) := by
  intro f
  induction f with
  | zero => intro b e r _ _ hf; omega
  | succ f ih =>
      intro b e r hb hr hf hle
      simp only [intPowLoop]
      have hsplit : b ^ e = b ^ (e % 2) * (b * b) ^ (e / 2) := by
        rw [← pow_two, ← pow_mul, ← pow_add, Nat.mod_add_div]
      have hpos : 1 ≤ (b * b) ^ (e / 2) := Nat.one_le_pow _ _ (by nlinarith)
      have hr' : 1 ≤ r * b ^ (e % 2) := by
        have := Nat.one_le_pow (e % 2) b hb
        nlinarith
      have h1 : (if e % 2 = 1 then fit ((r : Int) * b) else (Except.ok (r : Int)))
          = .ok ((r * b ^ (e % 2) : Nat) : Int) := by
        by_cases h : e % 2 = 1
        · rw [if_pos h, h, pow_one]
          have : r * b ≤ lim := by
            rw [hsplit, h, pow_one, ← Nat.mul_assoc] at hle
            exact (Nat.le_mul_of_pos_right _ (by omega)).trans hle
          have := hfit _ this
          push_cast at this ⊢
          exact this
        · have h0 : e % 2 = 0 := by omega
          rw [if_neg h, h0]
          simp
      have h4 : ∀ g : Int → Except Err Int, (if e % 2 = 1 then (fit ((r : Int) * b) >>= g)
          else ((pure (r : Int) : Except Err Int) >>= g))
          = g ((r * b ^ (e % 2) : Nat) : Int) := by
        intro g
        by_cases h : e % 2 = 1
        · rw [if_pos h] at h1 ⊢
          rw [h1]; rfl
        · rw [if_neg h] at h1 ⊢
          have : (pure (r : Int) : Except Err Int) = .ok ((r * b ^ (e % 2) : Nat) : Int) := h1
          rw [this]; rfl
      rw [h4]
      simp only [Bind.bind, Except.bind]
      by_cases he : e / 2 = 0
      · rw [if_pos he, hsplit, he]
        simp [Pure.pure, Except.pure]
      · rw [if_neg he]
        have h2 : b * b ≤ lim := by
          have : b * b ≤ (b * b) ^ (e / 2) := Nat.le_self_pow he _
          calc b * b ≤ (b * b) ^ (e / 2) := this
            _ ≤ (r * b ^ (e % 2)) * (b * b) ^ (e / 2) := Nat.le_mul_of_pos_left _ (by omega)
            _ = r * b ^ e := by rw [hsplit]; ring
            _ ≤ lim := hle
        have h3 : fit ((b : Int) * b) = .ok ((b * b : Nat) : Int) := by
          have := hfit _ h2
          push_cast at this ⊢
          exact this
        rw [h3]
        have := ih (b * b) (e / 2) (r * b ^ (e % 2)) (by nlinarith) hr' (by omega) (by
          rw [Nat.mul_assoc, ← hsplit]; exact hle)
        dsimp only
        rw [this, Nat.mul_assoc, ← hsplit]

theorem intPow32_ok {b e : Nat} (hb : 1 ≤ b) (h : b ^ e ≤ 2147483647) :
    intPow32 b e = .ok ((b ^ e : Nat) : Int) := by
  unfold intPow32
  have := intPowLoop_ok (fit := fit32) (lim := 2147483647)
    (fun v hv => fit32_ok (by omega) (by omega)) (e + 1) b e 1 hb (by omega) (by omega)
    (by simpa using h)
  simpa using this

theorem prod_pos {ds : List Nat} (h : ∀ d ∈ ds, 1 ≤ d) : 1 ≤ ds.prod := by
  induction ds with
  | nil => simp
  | cons d ds ih =>
      have h1 := ih (fun x hx => h x (by simp [hx]))
      have h2 := h d (by simp)
      rw [List.prod_cons]
      exact Nat.mul_pos h2 h1

theorem mixedProduct_ok {ds : List Nat} {a : Nat} (hpos : ∀ d ∈ ds, 1 ≤ d)
    (h : a * ds.prod ≤ 9223372036854775807) :
    mixedProduct ds (a : Int) = .ok ((a * ds.prod : Nat) : Int) := by
  induction ds generalizing a with
  | nil => simp [mixedProduct]
  | cons d ds ih =>
      simp only [List.prod_cons] at h
      have hp : 1 ≤ ds.prod := prod_pos (fun x hx => hpos x (by simp [hx]))
      have h1 : a * d ≤ 9223372036854775807 := by
        rw [← Nat.mul_assoc] at h
        exact (Nat.le_mul_of_pos_right _ (by omega)).trans h
      simp only [mixedProduct]
      have h2 : fit64 ((a : Int) * d) = .ok ((a * d : Nat) : Int) := by
        have := fit64_ok (v := ((a * d : Nat) : Int)) (by omega) (by omega)
        push_cast at this ⊢
        exact this
      rw [h2]
      simp only [Bind.bind, Except.bind]
      rw [ih (fun x hx => hpos x (by simp [hx])) (by rw [Nat.mul_assoc]; exact h)]
      simp [Nat.mul_assoc]

theorem domainProductOf_ok {fd : Option Nat} {doms : List Nat} (hpos : ∀ d ∈ doms, 1 ≤ d)
    (hfix : ∀ m, fd = some m → ∀ d ∈ doms, d = m)
    (h : ProdFits fd doms) : domainProductOf fd doms = .ok (doms.prod : Int) := by
  by_cases hnil : doms = []
  · subst hnil
    cases fd with
    | none => rfl
    | some m =>
        simp only [domainProductOf, List.length_nil, List.prod_nil]
        split
        · rfl
        · rfl
  have h1 : ∀ m, fd = some m → 1 ≤ m := by
    intro m hm
    obtain ⟨d, hd⟩ := List.exists_mem_of_ne_nil _ hnil
    rw [← hfix m hm d hd]
    exact hpos d hd
  have hconst : ∀ m, fd = some m → doms.prod = m ^ doms.length := by
    intro m hm
    have e : doms = List.replicate doms.length m :=
      List.eq_replicate_iff.2 ⟨rfl, hfix m hm⟩
    conv => lhs; rw [e]
    simp
  unfold domainProductOf
  unfold ProdFits at h
  cases fd with
  | none =>
      have := mixedProduct_ok (a := 1) hpos (by simpa using h)
      simpa using this
  | some m =>
      dsimp only at h ⊢
      have e := hconst m rfl
      by_cases hm : m = 2
      · subst hm
        rw [if_pos rfl] at h ⊢
        unfold shl64
        rw [if_pos h, e]
        simp
      · rw [if_neg hm] at h ⊢
        rw [intPow32_ok (h1 m rfl) h, e]

end Teddy

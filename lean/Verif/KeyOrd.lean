/-!
# Ordered keys

Assumptions on key dtypes (part of the trusted base): comparison of keys is a total preorder
(finite floats and `+inf`, with `-0.0` and `0.0` equivalent but distinct; or integers).  `NaN` keys are covered by
`BgpqNaN` only; `-inf` keys are covered where only `KeyTop` is assumed (everything but the BGPQ).  The classes without laws
(`KeyCmp`, `KeyPad`) are what the models need.
-/

/-- `a <= b` of a key dtype. -/
class KeyCmp (K : Type u) where
  le : K → K → Bool

/-- `a <= b` of a key dtype as a total preorder. -/
class KeyLE (K : Type u) extends KeyCmp K where
  trans : ∀ a b c, le a b → le b c → le a c
  total : ∀ a b, le a b || le b a

/-- The padding key `+inf` and `jnp.isfinite`. -/
class KeyPad (K : Type u) extends KeyCmp K where
  inf : K
  isFin : K → Bool

/-- A key dtype with `+inf`: `inf` is a greatest element.  Nothing is assumed about which keys are
finite, so this class includes floats with `-inf`. -/
class KeyTop (K : Type u) extends KeyPad K, KeyLE K where
  le_inf : ∀ k, le k inf

/-- A key dtype whose finite keys are exactly the keys strictly below `+inf` (no `-inf`). -/
class KeyInf (K : Type u) extends KeyTop K where
  isFin_eq : ∀ k, isFin k = !le inf k

namespace KeyLE

open KeyCmp

variable {K : Type u} [KeyLE K]

theorem refl (a : K) : le a a = true := by
  have := total a a; simpa using this

theorem le_of_not_le {a b : K} (h : le a b = false) : le b a = true := by
  have := total a b; simpa [h] using this

end KeyLE

/-- Keys used in examples: naturals with an infinity (`none`). -/
instance : KeyInf (Option Nat) where
  le a b := match a, b with
    | _, none => true
    | none, some _ => false
    | some x, some y => decide (x ≤ y)
  trans := by
    intro a b c; cases a <;> cases b <;> cases c <;> simp; omega
  total := by
    intro a b; cases a <;> cases b <;> simp; omega
  inf := none
  isFin := Option.isSome
  le_inf := by intro k; cases k <;> rfl
  isFin_eq := by intro k; cases k <;> rfl

/-- Keys used in examples with a `-inf` (`0`; the key `n` is `n + 1`, `none` is `+inf`). -/
structure SignedKey where
  val : Option Nat
  deriving DecidableEq

instance : KeyTop SignedKey where
  le a b := KeyCmp.le a.val b.val
  trans := fun a b c => KeyLE.trans a.val b.val c.val
  total := fun a b => KeyLE.total a.val b.val
  inf := ⟨none⟩
  isFin a := a.val.isSome && a.val != some 0
  le_inf := fun a => KeyTop.le_inf a.val

/-- Lexicographic order on (key, position): the order a *stable* sort by key produces. -/
def lexLE {K : Type u} [KeyLE K] (x y : K × Nat) : Bool :=
  KeyCmp.le x.1 y.1 && (!KeyCmp.le y.1 x.1 || decide (x.2 ≤ y.2))

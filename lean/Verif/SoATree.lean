import Verif.NArr
import Verif.AggModel

/-!
# Dataclass instances as trees of arrays

Instances are `Agg.Inst β`: named fields, each a leaf (an array) or a nested instance.  `treeMap`, `treeMapM` are
`jax.tree_util.tree_map` with one tree, `transpose` followed by `treeMapM` is `tree_map` with several trees (a structure
mismatch is a `ValueError`).
-/

namespace SoA

open Agg

variable {β γ δ : Type}

/-- `jax.tree_util.tree_map(f, x)`. -/
def treeMap (f : β → γ) : Inst β → Inst γ
  | .nil => .nil
  | .leaf n v rest => .leaf n (f v) (treeMap f rest)
  | .nested n sub rest => .nested n (treeMap f sub) (treeMap f rest)

/-- `jax.tree_util.tree_map(f, x)` with a function that may raise. -/
def treeMapM (f : β → Option γ) : Inst β → Option (Inst γ)
  | .nil => some .nil
  | .leaf n v rest => (f v).bind fun w => (treeMapM f rest).map fun r => .leaf n w r
  | .nested n sub rest => (treeMapM f sub).bind fun s => (treeMapM f rest).map fun r => .nested n s r

/-- `jax.tree_util.tree_leaves`. -/
def leaves : Inst β → List β
  | .nil => []
  | .leaf _ v rest => v :: leaves rest
  | .nested _ sub rest => leaves sub ++ leaves rest

/-- Attach the leaves of `y` to those of `x`; `none` when the structures differ. -/
def zip : Inst β → Inst γ → Option (Inst (β × γ))
  | .nil, .nil => some .nil
  | .leaf n v rest, .leaf n' w rest' => if n = n' then (zip rest rest').map fun r => .leaf n (v, w) r else none
  | .nested n sub rest, .nested n' sub' rest' =>
    if n = n' then (zip sub sub').bind fun s => (zip rest rest').map fun r => .nested n s r else none
  | _, _ => none

/-- The tree of the lists of corresponding leaves of `x :: ys`. -/
def transpose (x : Inst β) : List (Inst β) → Option (Inst (List β))
  | [] => some (treeMap (fun v => [v]) x)
  | y :: ys => (transpose y ys).bind fun t => (zip x t).map (treeMap fun p => p.1 :: p.2)

/-! ## Lemmas -/

theorem treeMap_comp (g : γ → δ) (f : β → γ) (x : Inst β) : treeMap g (treeMap f x) = treeMap (fun v => g (f v)) x := by
  induction x with
  | nil => rfl
  | leaf n v rest ih => simp only [treeMap, ih]
  | nested n sub rest ih1 ih2 => simp only [treeMap, ih1, ih2]

theorem treeMap_congr {f g : β → γ} {x : Inst β} (h : ∀ v ∈ leaves x, f v = g v) : treeMap f x = treeMap g x := by
  induction x with
  | nil => rfl
  | leaf n v rest ih => simp only [treeMap]; rw [h v (by simp [leaves]), ih fun w hw => h w (by simp [leaves, hw])]
  | nested n sub rest ih1 ih2 =>
    simp only [treeMap]
    rw [ih1 fun w hw => h w (by simp [leaves, hw]), ih2 fun w hw => h w (by simp [leaves, hw])]

theorem treeMap_id {f : β → β} {x : Inst β} (h : ∀ v ∈ leaves x, f v = v) : treeMap f x = x := by
  induction x with
  | nil => rfl
  | leaf n v rest ih => simp only [treeMap]; rw [h v (by simp [leaves]), ih fun w hw => h w (by simp [leaves, hw])]
  | nested n sub rest ih1 ih2 =>
    simp only [treeMap]
    rw [ih1 fun w hw => h w (by simp [leaves, hw]), ih2 fun w hw => h w (by simp [leaves, hw])]

theorem leaves_treeMap (f : β → γ) (x : Inst β) : leaves (treeMap f x) = (leaves x).map f := by
  induction x with
  | nil => rfl
  | leaf n v rest ih => simp [treeMap, leaves, ih]
  | nested n sub rest ih1 ih2 => simp [treeMap, leaves, ih1, ih2]

/-- `treeMapM` with a function that succeeds on every leaf. -/
theorem treeMapM_some {f : β → Option γ} {g : β → γ} {x : Inst β} (h : ∀ v ∈ leaves x, f v = some (g v)) :
    treeMapM f x = some (treeMap g x) := by
  induction x with
  | nil => rfl
  | leaf n v rest ih =>
    simp only [treeMapM, treeMap]
    rw [h v (by simp [leaves]), ih fun w hw => h w (by simp [leaves, hw])]
    rfl
  | nested n sub rest ih1 ih2 =>
    simp only [treeMapM, treeMap]
    rw [ih1 fun w hw => h w (by simp [leaves, hw]), ih2 fun w hw => h w (by simp [leaves, hw])]
    rfl

/-- What `treeMapM` returns, leaf by leaf. -/
theorem treeMapM_map {f : β → Option γ} {g : γ → δ} {h : β → δ} {x : Inst β} {z : Inst γ} (hz : treeMapM f x = some z)
    (hl : ∀ v ∈ leaves x, ∀ c, f v = some c → g c = h v) : treeMap g z = treeMap h x := by
  induction x generalizing z with
  | nil => simp only [treeMapM, Option.some.injEq] at hz; subst hz; rfl
  | leaf n v rest ih =>
    simp only [treeMapM] at hz
    cases hv : f v with
    | none => rw [hv] at hz; cases hz
    | some c =>
      cases hr : treeMapM f rest with
      | none => rw [hv, hr] at hz; cases hz
      | some r =>
        rw [hv, hr] at hz
        simp only [Option.bind_some, Option.map_some, Option.some.injEq] at hz
        subst hz
        simp only [treeMap]
        rw [hl v (by simp [leaves]) c hv, ih hr fun w hw => hl w (by simp [leaves, hw])]
  | nested n sub rest ih1 ih2 =>
    simp only [treeMapM] at hz
    cases hv : treeMapM f sub with
    | none => rw [hv] at hz; cases hz
    | some c =>
      cases hr : treeMapM f rest with
      | none => rw [hv, hr] at hz; cases hz
      | some r =>
        rw [hv, hr] at hz
        simp only [Option.bind_some, Option.map_some, Option.some.injEq] at hz
        subst hz
        simp only [treeMap]
        rw [ih1 hv fun w hw => hl w (by simp [leaves, hw]), ih2 hr fun w hw => hl w (by simp [leaves, hw])]

/-- `treeMapM` succeeds only if the function succeeds on every leaf. -/
theorem leaves_mapM {f : β → Option γ} {x : Inst β} {z : Inst γ} (hz : treeMapM f x = some z) : ∀ v ∈ leaves x, ∃ w, f v = some w := by
  induction x generalizing z with
  | nil => intro v hv; cases hv
  | leaf n v rest ih =>
    simp only [treeMapM] at hz
    cases hv : f v with
    | none => rw [hv] at hz; cases hz
    | some c =>
      cases hr : treeMapM f rest with
      | none => rw [hv, hr] at hz; cases hz
      | some r =>
        intro w hw
        rcases List.mem_cons.1 hw with rfl | hw
        · exact ⟨c, hv⟩
        · exact ih hr w hw
  | nested n sub rest ih1 ih2 =>
    simp only [treeMapM] at hz
    cases hv : treeMapM f sub with
    | none => rw [hv] at hz; cases hz
    | some c =>
      cases hr : treeMapM f rest with
      | none => rw [hv, hr] at hz; cases hz
      | some r =>
        intro w hw
        rcases List.mem_append.1 hw with hw | hw
        · exact ih1 hv w hw
        · exact ih2 hr w hw

/-- `zip` pairs the leaves of its arguments. -/
theorem zip_proj {x : Inst β} {y : Inst γ} {z : Inst (β × γ)} (h : zip x y = some z) :
    treeMap Prod.fst z = x ∧ treeMap Prod.snd z = y := by
  induction x generalizing y z with
  | nil =>
    cases y with
    | nil => simp only [zip, Option.some.injEq] at h; subst h; exact ⟨rfl, rfl⟩
    | leaf => simp [zip] at h
    | nested => simp [zip] at h
  | leaf n v rest ih =>
    cases y with
    | nil => simp [zip] at h
    | leaf n' w rest' =>
      simp only [zip] at h
      by_cases hn : n = n'
      · rw [if_pos hn] at h
        cases hr : zip rest rest' with
        | none => rw [hr] at h; cases h
        | some r =>
          rw [hr] at h
          simp only [Option.map_some, Option.some.injEq] at h
          subst h
          have := ih hr
          simp only [treeMap, this.1, this.2, hn, and_self]
      · rw [if_neg hn] at h; cases h
    | nested => simp [zip] at h
  | nested n sub rest ih1 ih2 =>
    cases y with
    | nil => simp [zip] at h
    | leaf => simp [zip] at h
    | nested n' sub' rest' =>
      simp only [zip] at h
      by_cases hn : n = n'
      · rw [if_pos hn] at h
        cases hs : zip sub sub' with
        | none => rw [hs] at h; cases h
        | some s =>
          cases hr : zip rest rest' with
          | none => rw [hs, hr] at h; cases h
          | some r =>
            rw [hs, hr] at h
            simp only [Option.map_some, Option.bind_some, Option.some.injEq] at h
            subst h
            have h1 := ih1 hs
            have h2 := ih2 hr
            simp only [treeMap, h1.1, h1.2, h2.1, h2.2, hn, and_self]
      · rw [if_neg hn] at h; cases h

theorem zip_treeMap {ε : Type} (f : δ → β) (g : ε → γ) (x : Inst δ) (y : Inst ε) :
    zip (treeMap f x) (treeMap g y) = (zip x y).map (treeMap fun p => (f p.1, g p.2)) := by
  induction x generalizing y with
  | nil => cases y <;> rfl
  | leaf n v rest ih =>
    cases y with
    | nil => rfl
    | leaf n' w rest' =>
      simp only [treeMap, zip]
      by_cases hn : n = n'
      · rw [if_pos hn, if_pos hn, ih]
        cases zip rest rest' <;> rfl
      · rw [if_neg hn, if_neg hn]; rfl
    | nested => rfl
  | nested n sub rest ih1 ih2 =>
    cases y with
    | nil => rfl
    | leaf => rfl
    | nested n' sub' rest' =>
      simp only [treeMap, zip]
      by_cases hn : n = n'
      · rw [if_pos hn, if_pos hn, ih1, ih2]
        cases zip sub sub' with
        | none => rfl
        | some s => cases zip rest rest' <;> rfl
      · rw [if_neg hn, if_neg hn]; rfl

theorem zip_self (x : Inst β) : zip x x = some (treeMap (fun v => (v, v)) x) := by
  induction x with
  | nil => rfl
  | leaf n v rest ih => simp only [zip, if_pos, ih, treeMap, Option.map_some]
  | nested n sub rest ih1 ih2 => simp only [zip, if_pos, ih1, ih2, treeMap, Option.map_some, Option.bind_some]

/-- `transpose` lists the leaves of its arguments. -/
theorem transpose_proj [Inhabited β] {x : Inst β} {ys : List (Inst β)} {t : Inst (List β)} (h : transpose x ys = some t) {k : Nat} {y : Inst β}
    (hk : (x :: ys)[k]? = some y) : treeMap (fun l => l.getD k default) t = y := by
  induction ys generalizing x t k with
  | nil =>
    simp only [transpose, Option.some.injEq] at h
    subst h
    cases k with
    | zero =>
      simp only [List.getElem?_cons_zero, Option.some.injEq] at hk
      subst hk
      rw [treeMap_comp]
      exact treeMap_id fun v _ => rfl
    | succ k => simp at hk
  | cons y' ys ih =>
    simp only [transpose] at h
    cases hy : transpose y' ys with
    | none => rw [hy] at h; cases h
    | some t' =>
      rw [hy] at h
      simp only [Option.bind_some] at h
      cases hz : zip x t' with
      | none => rw [hz] at h; cases h
      | some z =>
        rw [hz] at h
        simp only [Option.map_some, Option.some.injEq] at h
        subst h
        rw [treeMap_comp]
        obtain ⟨h1, h2⟩ := zip_proj hz
        cases k with
        | zero =>
          simp only [List.getElem?_cons_zero, Option.some.injEq] at hk
          subst hk
          rw [← h1]
          exact treeMap_congr fun v _ => rfl
        | succ k =>
          rw [List.getElem?_cons_succ] at hk
          have := ih hy hk
          rw [← this, ← h2, treeMap_comp]
          exact treeMap_congr fun v _ => rfl

theorem transpose_length {x : Inst β} {ys : List (Inst β)} {t : Inst (List β)} (h : transpose x ys = some t) :
    ∀ l ∈ leaves t, l.length = ys.length + 1 := by
  induction ys generalizing x t with
  | nil =>
    simp only [transpose, Option.some.injEq] at h
    subst h
    intro l hl
    rw [leaves_treeMap] at hl
    obtain ⟨v, _, rfl⟩ := List.mem_map.1 hl
    rfl
  | cons y ys ih =>
    simp only [transpose] at h
    cases hy : transpose y ys with
    | none => rw [hy] at h; cases h
    | some t' =>
      rw [hy] at h
      simp only [Option.bind_some] at h
      cases hz : zip x t' with
      | none => rw [hz] at h; cases h
      | some z =>
        rw [hz] at h
        simp only [Option.map_some, Option.some.injEq] at h
        subst h
        obtain ⟨h1, h2⟩ := zip_proj hz
        intro l hl
        rw [leaves_treeMap] at hl
        obtain ⟨p, hp, rfl⟩ := List.mem_map.1 hl
        have : p.2 ∈ leaves t' := by
          rw [← h2, leaves_treeMap]
          exact List.mem_map.2 ⟨p, hp, rfl⟩
        have := ih hy _ this
        simp [this]

end SoA

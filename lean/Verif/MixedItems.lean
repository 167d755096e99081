import Verif.MixedTable

/-!
# C112: items of integer fields, hashed, compared and converted as the code does
-/

namespace MixedTable

open HashTable WhereTypes HashModel

/-! ## Model -/

/-- The fields of one item: dtype and entries (nested fields and axes flattened, in the order of the leaves). -/
abbrev Fields := List (Dt × List Int)

/-- The bits of a field (hash.py:198-229 look at the width only).  Floats are not modelled here. -/
def leafOf : Dt × List Int → Leaf
  | (.bool, ns) => .bool (ns.map fun n => decide (n ≠ 0))
  | (.u8, ns) => .w8 (ns.map (BitVec.ofInt 8))
  | (.i8, ns) => .w8 (ns.map (BitVec.ofInt 8))
  | (.u16, ns) => .w16 (ns.map (BitVec.ofInt 16))
  | (.i16, ns) => .w16 (ns.map (BitVec.ofInt 16))
  | (.u32, ns) => .w32 (ns.map (BitVec.ofInt 32))
  | (.i32, ns) => .w32 (ns.map (BitVec.ofInt 32))
  | (_, _) => .w32 []

/-- `item.uint32ed` (hash.py:231-237). -/
def itemWords (g : Fields) : List Nat := (uint32ed (g.map leafOf)).map BitVec.toNat

/-- `stored == item` (ops.py:27-53): every field is compared after conversion to the common dtype. -/
def sameFields (s g : Fields) : Bool :=
  (s.zip g).all fun p => p.1.2.map (wrap (p.1.1.promote p.2.1)) == p.2.2.map (wrap (p.1.1.promote p.2.1))

/-- What is in the slot after writing `g` to fields of dtypes `D` (C110). -/
def castFields (D : List (Dt × Nat)) (g : Fields) : Fields := List.zipWith (fun d f => (d.1, f.2.map (wrap d.1))) D g

/-- What writing fields of dtypes `E` does to a slot that is not written: there and back through the common dtype (C110). -/
def aroundFields : List Dt → Fields → Fields
  | e :: E, f :: s => (f.1, f.2.map fun n => wrap f.1 (wrap (f.1.promote e) n)) :: aroundFields E s
  | _, s => s

/-- Items with the dtypes and numbers of entries `D`, entries in the range of the dtype. -/
def InClass (D : List (Dt × Nat)) (x : Fields) : Prop :=
  x.map (fun f => (f.1, f.2.length)) = D ∧ ∀ f ∈ x, f.1.isInt = true ∧ ∀ n ∈ f.2, Holds f.1 n

/-- The items of a class. -/
def Item (D : List (Dt × Nat)) := { x : Fields // InClass D x }

instance (D : List (Dt × Nat)) : DecidableEq (Item D) := inferInstanceAs (DecidableEq (Subtype _))

/-- Items that can be given for the class `D`: as many entries in every field, any integer dtypes. -/
def Given (D : List (Dt × Nat)) := { g : Fields // g.map (fun f => f.2.length) = D.map (·.2) ∧ ∀ f ∈ g, f.1.isInt = true ∧ ∀ n ∈ f.2, Holds f.1 n }

/-! ## Lemmas -/

theorem wrap_of_holds {d : Dt} {n : Int} (h : Holds d n) : wrap d n = n := by
  revert h
  cases d <;> simp [Holds, wrap] <;> omega

theorem map_wrap {d : Dt} {ns : List Int} (h : ∀ n ∈ ns, Holds d n) : ns.map (wrap d) = ns :=
  (List.map_congr_left fun n hn => wrap_of_holds (h n hn)).trans (List.map_id _)

theorem cast_inClass : ∀ {D : List (Dt × Nat)} {g : Fields}, (∀ d ∈ D, d.1.isInt = true) → g.map (fun f => f.2.length) = D.map (·.2) → InClass D (castFields D g)
  | [], [], _, _ => ⟨rfl, fun f hf => by cases hf⟩
  | [], _ :: _, _, h => by cases h
  | _ :: _, [], _, h => by cases h
  | d :: D, f :: g, hD, h => by
    obtain ⟨h1, h2⟩ := List.cons.inj h
    obtain ⟨c1, c2⟩ := cast_inClass (fun d hd => hD d (List.mem_cons_of_mem _ hd)) h2
    have hd := hD d List.mem_cons_self
    refine ⟨?_, fun f' hf' => ?_⟩
    · show (d.1, (f.2.map (wrap d.1)).length) :: (castFields D g).map _ = _
      rw [c1, List.length_map]
      show (d.1, f.2.length) :: D = d :: D
      rw [show f.2.length = d.2 from h1]
    · rcases List.mem_cons.1 hf' with rfl | hf'
      · refine ⟨hd, fun n hn => ?_⟩
        obtain ⟨m, _, rfl⟩ := List.mem_map.1 hn
        exact StoreTypes.wrap_holds hd m
      · exact c2 f' hf'

/-- The item that is stored. -/
def stored {D : List (Dt × Nat)} (hD : ∀ d ∈ D, d.1.isInt = true) (g : Given D) : Item D := ⟨castFields D g.1, cast_inClass hD g.2.1⟩

theorem wrap_around {d e : Dt} (hd : d.isInt = true) (he : e.isInt = true) {n : Int} (h : Holds d n) : wrap d (wrap (d.promote e) n) = n := by
  revert hd he h
  cases d <;> cases e <;> simp [Dt.isInt, Dt.promote, Holds, wrap] <;> (try omega) <;> (try rintro (rfl | rfl) <;> decide)

theorem wrap_inj {d e : Dt} (hd : d.isInt = true) (he : e.isInt = true) {n m : Int} (h : Holds d n) (h' : Holds d m)
    (hw : wrap (d.promote e) n = wrap (d.promote e) m) : n = m := by
  rw [← wrap_around hd he h, ← wrap_around hd he h', hw]

theorem around_inClass : ∀ {D : List (Dt × Nat)} {E : List Dt} {x : Fields}, (∀ e ∈ E, e.isInt = true) → InClass D x → aroundFields E x = x
  | _, [], x, _, _ => by cases x <;> rfl
  | _, _ :: _, [], _, _ => rfl
  | D, e :: E, f :: x, hE, h => by
    obtain ⟨h1, h2⟩ := h
    obtain ⟨hf, hn⟩ := h2 f List.mem_cons_self
    unfold aroundFields
    rw [around_inClass (D := D.tail) (fun e he => hE e (List.mem_cons_of_mem _ he)) ⟨by rw [← h1]; rfl, fun f' hf' => h2 f' (List.mem_cons_of_mem _ hf')⟩]
    congr 1
    have : (f.2.map fun n => wrap f.1 (wrap (f.1.promote e) n)) = f.2 :=
      (List.map_congr_left fun n hn' => wrap_around hf (hE e List.mem_cons_self) (hn n hn')).trans (List.map_id _)
    rw [this]

/-- The same on items of the class. -/
def aroundItem {D : List (Dt × Nat)} (E : List Dt) (hE : ∀ e ∈ E, e.isInt = true) (s : Item D) : Item D :=
  ⟨aroundFields E s.1, by rw [around_inClass hE s.2]; exact s.2⟩

theorem aroundItem_id {D : List (Dt × Nat)} {E : List Dt} (hE : ∀ e ∈ E, e.isInt = true) (s : Item D) : aroundItem E hE s = s :=
  Subtype.ext (around_inClass hE s.2)

/-! ## Hashes of items of the class -/

/-- Width of a dtype, as a layout. -/
def kindOf : Dt → Kind
  | .bool => .bool
  | .u8 | .i8 => .b8
  | .u16 | .i16 => .b16
  | _ => .b32

theorem leaf_layout {f : Dt × List Int} (h : f.1.isInt = true) : (leafOf f).layout = (kindOf f.1, f.2.length) := by
  obtain ⟨d, ns⟩ := f
  cases d <;> first | (simp [Dt.isInt] at h; done) | simp [leafOf, Leaf.layout, kindOf]

theorem map_inj_on {γ δ : Type} {f : γ → δ} {P : γ → Prop} (hf : ∀ a b, P a → P b → f a = f b → a = b) :
    ∀ {l l' : List γ}, (∀ a ∈ l, P a) → (∀ a ∈ l', P a) → l.map f = l'.map f → l = l'
  | [], [], _, _, _ => rfl
  | [], _ :: _, _, _, h => by cases h
  | _ :: _, [], _, _, h => by cases h
  | a :: l, b :: l', h1, h2, h => by
    obtain ⟨e1, e2⟩ := List.cons.inj h
    rw [hf a b (h1 a List.mem_cons_self) (h2 b List.mem_cons_self) e1,
      map_inj_on hf (fun x hx => h1 x (List.mem_cons_of_mem _ hx)) (fun x hx => h2 x (List.mem_cons_of_mem _ hx)) e2]

theorem ofInt_inj8 {a b : Int} (h : (BitVec.ofInt 8 a) = BitVec.ofInt 8 b) : a % 256 = b % 256 := by
  have := congrArg BitVec.toNat h
  rw [BitVec.toNat_ofInt, BitVec.toNat_ofInt] at this
  omega

theorem ofInt_inj16 {a b : Int} (h : (BitVec.ofInt 16 a) = BitVec.ofInt 16 b) : a % 65536 = b % 65536 := by
  have := congrArg BitVec.toNat h
  rw [BitVec.toNat_ofInt, BitVec.toNat_ofInt] at this
  omega

theorem ofInt_inj32 {a b : Int} (h : (BitVec.ofInt 32 a) = BitVec.ofInt 32 b) : a % 4294967296 = b % 4294967296 := by
  have := congrArg BitVec.toNat h
  rw [BitVec.toNat_ofInt, BitVec.toNat_ofInt] at this
  omega

theorem leaf_inj {d : Dt} (hd : d.isInt = true) {ns ms : List Int} (hn : ∀ n ∈ ns, Holds d n) (hm : ∀ n ∈ ms, Holds d n) (h : leafOf (d, ns) = leafOf (d, ms)) : ns = ms := by
  cases d <;> first
    | (exact absurd hd (by decide))
    | (simp only [leafOf, Leaf.bool.injEq, Leaf.w8.injEq, Leaf.w16.injEq, Leaf.w32.injEq] at h
       refine map_inj_on (fun a b ha hb e => ?_) hn hm h
       first
       | (have := ofInt_inj8 e; simp only [Holds] at ha hb; omega)
       | (have := ofInt_inj16 e; simp only [Holds] at ha hb; omega)
       | (have := ofInt_inj32 e; simp only [Holds] at ha hb; omega)
       | (rcases ha with rfl | rfl <;> rcases hb with rfl | rfl <;> first | rfl | (exact absurd e (by decide))))

theorem leaves_inj : ∀ {D : List (Dt × Nat)} {x y : Fields}, InClass D x → InClass D y → x.map leafOf = y.map leafOf → x = y
  | _, [], [], _, _, _ => rfl
  | _, [], _ :: _, _, _, h => by cases h
  | _, _ :: _, [], _, _, h => by cases h
  | D, (d, ns) :: x, (e, ms) :: y, hx, hy, h => by
    obtain ⟨e1, e2⟩ := List.cons.inj h
    have hde : d = e := by
      have := hx.1.trans hy.1.symm
      exact congrArg Prod.fst (List.cons.inj this).1
    subst hde
    obtain ⟨i1, n1⟩ := hx.2 _ List.mem_cons_self
    obtain ⟨_, n2⟩ := hy.2 _ List.mem_cons_self
    have hns : ns = ms := leaf_inj i1 n1 n2 e1
    rw [hns, leaves_inj (D := D.tail) ⟨by rw [← hx.1]; rfl, fun f hf => hx.2 f (List.mem_cons_of_mem _ hf)⟩
      ⟨by rw [← hy.1]; rfl, fun f hf => hy.2 f (List.mem_cons_of_mem _ hf)⟩ e2]

theorem inClass_layout {D : List (Dt × Nat)} {x : Fields} (h : InClass D x) : (x.map leafOf).map Leaf.layout = D.map fun d => (kindOf d.1, d.2) := by
  rw [← h.1, List.map_map, List.map_map]
  exact List.map_congr_left fun f hf => leaf_layout (h.2 f hf).1

/-- The hasher of the class (as `HashModel.classHasher`, on integers instead of bits). -/
def itemHasher (m : Stream) (D : List (Dt × Nat)) (seed : W) : Hasher (Item D) where
  wc := ((D.map fun d => (kindOf d.1, d.2)).map layoutWords).sum
  words := fun x => itemWords x.1
  h1 := fun x => (hashPair m (x.1.map leafOf) seed).1.toNat
  h2 := fun x => (hashPair m (x.1.map leafOf) seed).2.toNat
  words_length := fun x => by unfold itemWords; rw [List.length_map, uint32ed_length, inClass_layout x.2]
  words_inj := fun x y h => by
    apply Subtype.ext
    refine leaves_inj x.2 y.2 (uint32ed_injective _ _ (by rw [inClass_layout x.2, inClass_layout y.2]) ?_)
    exact (List.map_inj_right fun a b hab => BitVec.eq_of_toNat_eq hab).1 h
  mix := fun a b => (mixFingerprint (BitVec.ofNat 32 a) (BitVec.ofNat 32 b) 0).toNat

/-- What the code takes from an item given with its own dtypes. -/
def given (m : Stream) {D : List (Dt × Nat)} (hD : ∀ d ∈ D, d.1.isInt = true) (seed : W) (g : Given D) : Probe (Item D) where
  h1 := (hashPair m (g.1.map leafOf) seed).1.toNat
  h2 := (hashPair m (g.1.map leafOf) seed).2.toNat
  fp := (mixFingerprint (BitVec.ofNat 32 (hashPair m (g.1.map leafOf) seed).1.toNat) (BitVec.ofNat 32 (hashPair m (g.1.map leafOf) seed).2.toNat) 0).toNat
  words := itemWords g.1
  same := fun s => sameFields s.1 g.1
  stored := stored hD g

/-! ## Specification: items for which the dtypes make no difference -/

/-- Bits of a dtype. -/
def bits : Dt → Nat
  | .bool | .u8 | .i8 => 8
  | .u16 | .i16 => 16
  | _ => 32

/-- The entries are in the range of the field of the class, and the dtype has the same width, or the field is a scalar that is not negative. -/
def FieldFits (d : Dt) (f : Dt × List Int) : Prop :=
  (∀ n ∈ f.2, Holds d n) ∧ (bits f.1 = bits d ∨ f.2.length ≤ 1 ∧ ∀ n ∈ f.2, 0 ≤ n)

/-- Every field does. -/
def Fits {D : List (Dt × Nat)} (g : Given D) : Prop := ∀ p ∈ D.zip g.1, FieldFits p.1.1 p.2

/-! ## Words -/

theorem words8 {d : Dt} (hd : d.isInt = true) (hb : bits d = 8) {ns : List Int} (h : ∀ n ∈ ns, Holds d n) : leafWords (leafOf (d, ns)) = wordsOfBytes (ns.map (BitVec.ofInt 8)) := by
  cases d <;> first
    | (exact absurd hb (by decide))
    | rfl
    | (show wordsOfBytes _ = _
       rw [List.map_map]
       congr 1
       refine List.map_congr_left fun n hn => ?_
       rcases h n hn with rfl | rfl <;> rfl)

theorem words16 {d : Dt} (hb : bits d = 16) {ns : List Int} : leafWords (leafOf (d, ns)) = packUint16 (ns.map (BitVec.ofInt 16)) := by
  cases d <;> first
    | (exact absurd hb (by decide))
    | rfl

theorem words32 {d : Dt} (hd : d.isInt = true) (hb : bits d = 32) {ns : List Int} : leafWords (leafOf (d, ns)) = ns.map (BitVec.ofInt 32) := by
  cases d <;> first
    | (exact absurd hb (by decide))
    | (exact absurd hd (by decide))
    | rfl

theorem words_single {d : Dt} (hd : d.isInt = true) {n : Int} (h : Holds d n) (h0 : 0 ≤ n) : leafWords (leafOf (d, [n])) = [BitVec.ofInt 32 n] := by
  have hb : bits d = 8 ∨ bits d = 16 ∨ bits d = 32 := by cases d <;> decide
  rcases hb with hb | hb | hb
  · rw [words8 hd hb (fun m hm => by rw [List.mem_singleton] at hm; subst hm; exact h)]
    have hn : n < 256 := by
      revert h hb
      cases d <;> simp [bits, Holds] <;> omega
    show [_] = [_]
    congr 1
    apply BitVec.eq_of_toNat_eq
    simp [BitVec.toNat_ofInt]
    omega
  · rw [words16 hb]
    have hn : n < 65536 := by
      revert h hb
      cases d <;> simp [bits, Holds] <;> omega
    show [_] = [_]
    congr 1
    apply BitVec.eq_of_toNat_eq
    simp [BitVec.toNat_ofInt]
    omega
  · rw [words32 hd hb]; rfl

theorem words_fit {d e : Dt} (hd : d.isInt = true) (he : e.isInt = true) {ns : List Int} (hn : ∀ n ∈ ns, Holds e n) (h : FieldFits d (e, ns)) :
    leafWords (leafOf (e, ns)) = leafWords (leafOf (d, ns)) := by
  obtain ⟨hr, hb | ⟨hl, h0⟩⟩ := h
  · have hb : bits e = bits d := hb
    have hbd : bits d = 8 ∨ bits d = 16 ∨ bits d = 32 := by cases d <;> decide
    rcases hbd with hbd | hbd | hbd
    · rw [words8 hd hbd hr, words8 he (hb.trans hbd) hn]
    · rw [words16 hbd, words16 (hb.trans hbd)]
    · rw [words32 hd hbd, words32 he (hb.trans hbd)]
  · match ns, hl, h0, hr, hn with
    | [], _, _, _, _ =>
      cases d <;> cases e <;> rfl
    | [n], _, h0, hr, hn =>
      rw [words_single he (hn n List.mem_cons_self) (h0 n List.mem_cons_self), words_single hd (hr n List.mem_cons_self) (h0 n List.mem_cons_self)]

theorem fits_words : ∀ {D : List (Dt × Nat)} {g : Fields}, (∀ d ∈ D, d.1.isInt = true) → g.map (fun f => f.2.length) = D.map (·.2) →
    (∀ f ∈ g, f.1.isInt = true ∧ ∀ n ∈ f.2, Holds f.1 n) → (∀ p ∈ D.zip g, FieldFits p.1.1 p.2) →
    (g.map leafOf).map leafWords = ((castFields D g).map leafOf).map leafWords
  | [], [], _, _, _, _ => rfl
  | [], _ :: _, _, h, _, _ => by cases h
  | _ :: _, [], _, h, _, _ => by cases h
  | d :: D, (e, ns) :: g, hD, h, hg, hf => by
    obtain ⟨_, h2⟩ := List.cons.inj h
    have ih := fits_words (fun d hd => hD d (List.mem_cons_of_mem _ hd)) h2 (fun f hf' => hg f (List.mem_cons_of_mem _ hf')) fun p hp => hf p (List.mem_cons_of_mem _ hp)
    obtain ⟨g1, g2⟩ := hg _ List.mem_cons_self
    have f1 := hf (d, (e, ns)) List.mem_cons_self
    show leafWords (leafOf (e, ns)) :: (g.map leafOf).map leafWords = leafWords (leafOf (d.1, ns.map (wrap d.1))) :: ((castFields D g).map leafOf).map leafWords
    rw [ih, map_wrap f1.1, words_fit (hD d List.mem_cons_self) g1 g2 f1]

/-! ## Comparison -/

theorem same_fits : ∀ {D : List (Dt × Nat)} {s g : Fields}, InClass D s → g.map (fun f => f.2.length) = D.map (·.2) →
    (∀ f ∈ g, f.1.isInt = true ∧ ∀ n ∈ f.2, Holds f.1 n) → (∀ p ∈ D.zip g, FieldFits p.1.1 p.2) → sameFields s g = decide (s = castFields D g)
  | [], [], [], _, _, _, _ => rfl
  | [], _ :: _, _, h, _, _, _ => by have := h.1; cases this
  | [], [], _ :: _, _, h, _, _ => by cases h
  | _ :: _, [], _, h, _, _, _ => by have := h.1; cases this
  | _ :: _, _ :: _, [], _, h, _, _ => by cases h
  | d :: D, (d', xs) :: s, (e, ns) :: g, hs, h, hg, hf => by
    obtain ⟨_, h2⟩ := List.cons.inj h
    obtain ⟨hs1, hs2⟩ := List.cons.inj hs.1
    have hdd : d' = d.1 := congrArg Prod.fst hs1
    subst hdd
    have ih := same_fits (s := s) ⟨hs2, fun f hf' => hs.2 f (List.mem_cons_of_mem _ hf')⟩ h2 (fun f hf' => hg f (List.mem_cons_of_mem _ hf'))
      fun p hp => hf p (List.mem_cons_of_mem _ hp)
    obtain ⟨s1, s2⟩ := hs.2 _ List.mem_cons_self
    obtain ⟨g1, g2⟩ := hg _ List.mem_cons_self
    have f1 := hf (d, (e, ns)) List.mem_cons_self
    have hc : castFields (d :: D) ((e, ns) :: g) = (d.1, ns) :: castFields D g := by
      show (d.1, ns.map (wrap d.1)) :: _ = _
      rw [map_wrap f1.1]
      rfl
    have hfield : (xs.map (wrap (d.1.promote e)) == ns.map (wrap (d.1.promote e))) = decide (xs = ns) := by
      by_cases hx : xs = ns
      · subst hx; simp
      · rw [decide_eq_false hx]
        rw [beq_eq_false_iff_ne]
        exact fun hw => hx (map_inj_on (fun a b ha hb hab => wrap_inj s1 g1 ha hb hab) s2 f1.1 hw)
    rw [hc]
    show ((xs.map (wrap (d.1.promote e)) == ns.map (wrap (d.1.promote e))) && sameFields s g) = _
    rw [hfield, ih]
    by_cases hx : xs = ns <;> by_cases hy : s = castFields D g <;> simp [hx, hy]

/-! ## Theorems -/

theorem fp_def {β : Type} (H : Hasher β) (x : β) : H.fp x = H.mix (H.h1 x) (H.h2 x) := rfl
theorem hasher_h1 (m : Stream) (D : List (Dt × Nat)) (seed : W) (x : Item D) : (itemHasher m D seed).h1 x = (hashPair m (x.1.map leafOf) seed).1.toNat := rfl
theorem hasher_h2 (m : Stream) (D : List (Dt × Nat)) (seed : W) (x : Item D) : (itemHasher m D seed).h2 x = (hashPair m (x.1.map leafOf) seed).2.toNat := rfl
theorem hasher_words (m : Stream) (D : List (Dt × Nat)) (seed : W) (x : Item D) : (itemHasher m D seed).words x = itemWords x.1 := rfl
theorem hasher_mix (m : Stream) (D : List (Dt × Nat)) (seed : W) (a b : Nat) : (itemHasher m D seed).mix a b = (mixFingerprint (BitVec.ofNat 32 a) (BitVec.ofNat 32 b) 0).toNat := rfl

theorem given_h1 (m : Stream) {D : List (Dt × Nat)} (hD : ∀ d ∈ D, d.1.isInt = true) (seed : W) (g : Given D) :
    (given m hD seed g).h1 = (hashPair m (g.1.map leafOf) seed).1.toNat := rfl
theorem given_h2 (m : Stream) {D : List (Dt × Nat)} (hD : ∀ d ∈ D, d.1.isInt = true) (seed : W) (g : Given D) :
    (given m hD seed g).h2 = (hashPair m (g.1.map leafOf) seed).2.toNat := rfl
theorem given_fp (m : Stream) {D : List (Dt × Nat)} (hD : ∀ d ∈ D, d.1.isInt = true) (seed : W) (g : Given D) :
    (given m hD seed g).fp = (mixFingerprint (BitVec.ofNat 32 (given m hD seed g).h1) (BitVec.ofNat 32 (given m hD seed g).h2) 0).toNat := rfl
theorem given_words (m : Stream) {D : List (Dt × Nat)} (hD : ∀ d ∈ D, d.1.isInt = true) (seed : W) (g : Given D) :
    (given m hD seed g).words = itemWords g.1 := rfl

theorem hash_congr (m : Stream) (seed : W) {x y : List Leaf} (h : x.map leafWords = y.map leafWords) : hashPair m x seed = hashPair m y seed := by
  have hu : uint32ed x = uint32ed y := by
    unfold uint32ed
    rw [List.flatMap_def, List.flatMap_def, h]
  unfold hashPair
  rw [h, hu]

/-- **C112 (1).**  An item of integer fields in range, of the same width or not negative scalars, is to a table what the converted item is. -/
theorem fits_agrees (m : Stream) {D : List (Dt × Nat)} (hD : ∀ d ∈ D, d.1.isInt = true) (seed : W) {g : Given D} (hf : Fits g) (T : Table (Item D)) :
    Agrees (itemHasher m D seed) T (given m hD seed g) (stored hD g) := by
  have hw := fits_words hD g.2.1 g.2.2 hf
  have hu : uint32ed (g.1.map leafOf) = uint32ed ((castFields D g.1).map leafOf) := by
    unfold uint32ed
    rw [List.flatMap_def, List.flatMap_def, hw]
  have hp := hash_congr m seed hw
  have hs : (stored hD g).1 = castFields D g.1 := rfl
  refine ⟨?_, ?_, ?_, ?_, rfl, fun s _ => ?_⟩
  · rw [given_h1, hasher_h1, hs, hp]
  · rw [given_h2, hasher_h2, hs, hp]
  · rw [fp_def, given_fp, given_h1, given_h2, hasher_h1, hasher_h2, hasher_mix, hs, hp]
  · rw [given_words, hasher_words, hs]
    unfold itemWords
    rw [hu]
  · show sameFields s.1 g.1 = _
    rw [same_fits s.2 g.2.1 g.2.2 hf]
    exact decide_eq_decide.2 ⟨fun h => Subtype.ext h, fun h => congrArg Subtype.val h⟩

/-- Calls that change a table, with items in dtypes of their own; a batch has the dtypes `E`. -/
inductive GOp (D : List (Dt × Nat)) (K : Type) where
  | insert (g : Given D)
  | parallelInsert (be : Backend) (mode : Dedupe.Mode) (E : List Dt) (hE : ∀ e ∈ E, e.isInt = true) (gs : List (Given D)) (filled : List Bool) (key : Option (List K))

section History

variable {K : Type} [KeyTop K] {D : List (Dt × Nat)}

theorem dtypes_int (g : Given D) : ∀ e ∈ g.1.map (·.1), e.isInt = true := fun e he => by
  obtain ⟨f, hf, rfl⟩ := List.mem_map.1 he
  exact (g.2.2 f hf).1

/-- Number of words of the items of a batch (`uint32eds.shape[1]`). -/
def wordCount (E : List Dt) (D : List (Dt × Nat)) : Nat := ((E.zip D).map fun p => layoutWords (kindOf p.1, p.2.2)).sum

/-- One call (models above). -/
def runG (m : Stream) (hD : ∀ d ∈ D, d.1.isInt = true) (seed : W) (T : Table (Item D)) : GOp D K → Table (Item D)
  | .insert g => (insertP (aroundItem (g.1.map (·.1)) (dtypes_int g)) T (given m hD seed g)).1
  | .parallelInsert be mode E hE gs filled key => (parallelInsertP (aroundItem E hE) be mode (wordCount E D) T (gs.map (given m hD seed)) filled key).table

/-- The same call with the items converted first. -/
def GOp.converted (hD : ∀ d ∈ D, d.1.isInt = true) : GOp D K → Op (Item D) K
  | .insert g => .insert (stored hD g)
  | .parallelInsert be mode _ _ gs filled key => .parallelInsert be mode (gs.map (stored hD)) filled key

/-- What is asked of a call: all items fit; the items of a batch have its dtypes, and as many words as items of the class. -/
def GOp.Ok : GOp D K → Prop
  | .insert g => Fits g
  | .parallelInsert _ _ E _ gs _ _ => (∀ g ∈ gs, Fits g ∧ g.1.map (·.1) = E) ∧ wordCount E D = ((D.map fun d => (kindOf d.1, d.2)).map layoutWords).sum

/-- **C112 (2).**  Every history of calls with such items leaves exactly the table that the history with the converted items leaves. -/
theorem mixed_history (m : Stream) (hD : ∀ d ∈ D, d.1.isInt = true) (seed : W) : ∀ (ops : List (GOp D K)) (T : Table (Item D)), (∀ o ∈ ops, o.Ok) →
    ops.foldl (runG m hD seed) T = exec (itemHasher m D seed) T (ops.map (·.converted hD))
  | [], _, _ => rfl
  | o :: ops, T, h => by
    have h1 : runG m hD seed T o = run (itemHasher m D seed) T (o.converted hD) := by
      have ho := h o List.mem_cons_self
      cases o with
      | insert g =>
        show (insertP _ T _).1 = (HashTable.insert _ T _).1
        rw [insert_agree (fits_agrees m hD seed ho T) fun s _ => aroundItem_id _ s]
      | parallelInsert be mode E hE gs filled key =>
        show (parallelInsertP _ be mode _ T _ filled key).table = (parallelInsert be mode _ T _ filled key).table
        rw [ho.2, show ((D.map fun d => (kindOf d.1, d.2)).map layoutWords).sum = (itemHasher m D seed).wc from rfl,
          parallelInsert_agree (fun g hg => fits_agrees m hD seed (ho.1 g hg).1 T) fun s _ => aroundItem_id _ s]
    show ops.foldl (runG m hD seed) (runG m hD seed T o) = exec (itemHasher m D seed) (run (itemHasher m D seed) T (o.converted hD)) (ops.map _)
    rw [h1]
    exact mixed_history m hD seed ops _ fun o' ho' => h o' (List.mem_cons_of_mem _ ho')

/-- **C112 (3).**  After such a history from an empty table, `lookup` and `lookup_parallel` of any item that fits find it iff the converted item is stored, at its index. -/
theorem mixed_lookup (m : Stream) (hD : ∀ d ∈ D, d.1.isInt = true) (seed : W) (d : Item D) {capacity bs mult : Nat} {mp : Option Nat} (hv : ValidParams capacity bs mult mp)
    (ops : List (GOp D K)) (ho : ∀ o ∈ ops, o.Ok) {g : Given D} (hf : Fits g) :
    let T := ops.foldl (runG m hD seed) (build d capacity bs mult mp)
    ((lookupP T (given m hD seed g)).2 = true ↔ ∃ i, Stored T (stored hD g) i) ∧
    (∀ i, Stored T (stored hD g) i → (lookupP T (given m hD seed g)).1 = i) ∧
    ∀ (gs : List (Given D)) (filled : List Bool), (∀ g ∈ gs, Fits g) →
      lookupParallelP T (gs.map (given m hD seed)) filled = lookupParallel (itemHasher m D seed) T (gs.map (stored hD)) filled := by
  intro T
  have hr : Reachable K (itemHasher m D seed) T := ⟨d, capacity, bs, mult, mp, ops.map (·.converted hD), hv, mixed_history m hD seed ops _ ho⟩
  have hl := lookup_exact hr (stored hD g)
  rw [lookup_agree (fits_agrees m hD seed hf T)]
  refine ⟨hl.1, fun i hi => ?_, fun gs filled hgs => lookupParallel_agree (fun g hg => fits_agrees m hD seed (hgs g hg) T) filled⟩
  have := hl.2 (hl.1.2 ⟨i, hi⟩)
  exact (this.2 i hi).symm

end History

/-! ## What goes wrong otherwise -/

/-- A class with one scalar field. -/
def scalar (d : Dt) : List (Dt × Nat) := [(d, 1)]

/-- An entry with a dtype of its own. -/
def one {d : Dt} (e : Dt) (n : Int) (he : e.isInt = true) (h : Holds e n) : Given (scalar d) :=
  ⟨[(e, [n])], rfl, fun f hf => by
    rw [List.mem_singleton] at hf
    subst hf
    exact ⟨he, fun k hk => by rw [List.mem_singleton] at hk; subst hk; exact h⟩⟩

def zeroI : Item (scalar .i32) := ⟨[(.i32, [0])], rfl, fun f hf => by
  rw [List.mem_singleton] at hf
  subst hf
  exact ⟨rfl, fun k hk => by rw [List.mem_singleton] at hk; subst hk; simp [Holds]⟩⟩

def zeroU : Item (scalar .u8) := ⟨[(.u8, [0])], rfl, fun f hf => by
  rw [List.mem_singleton] at hf
  subst hf
  exact ⟨rfl, fun k hk => by rw [List.mem_singleton] at hk; subst hk; simp [Holds]⟩⟩

theorem scalar_int {d : Dt} (h : d.isInt = true) : ∀ p ∈ scalar d, p.1.isInt = true := fun p hp => by
  rw [scalar, List.mem_singleton] at hp
  subst hp; exact h

/-- **C112 (4).**  A class with one int32 field, seed 42.  After `insert` of -1 given as int8, `lookup` of -1 given as int32 does not find it, and inserting that stores the
item a second time. -/
theorem narrow_negative_lost :
    let hD := scalar_int (d := .i32) rfl
    let a := given .off hD 42 (one .i8 (-1) rfl (by simp [Holds]))
    let b := given .off hD 42 (one .i32 (-1) rfl (by simp [Holds]))
    let T := (insertP id (build zeroI 8 2 2 none) a).1
    (lookupP T a).2 = true ∧ a.stored = b.stored ∧ (lookupP T b).2 = false ∧ (insertP id T b).2.1 = true ∧ (insertP id T b).1.size = 2 ∧
    ((insertP id T b).1.table.filter (· = b.stored)).length = 2 := by
  decide +kernel

/-- **C112 (5).**  A class with one uint8 field: 300 given as int32 is never found, and each `insert` of it takes another slot. -/
theorem out_of_range_never_found :
    let hD := scalar_int (d := .u8) rfl
    let a := given .off hD 42 (one .i32 300 rfl (by simp [Holds]))
    let T := (insertP id (build zeroU 8 2 2 none) a).1
    (insertP id (build zeroU 8 2 2 none) a).2.1 = true ∧ (lookupP T a).2 = false ∧ (insertP id T a).2.1 = true ∧ (insertP id T a).1.size = 2 := by
  decide +kernel

/-- **C112 (6).**  `around` need not be the identity if an integer field is given a float (C110): then one `insert` changes another stored item, which is not found afterwards.
Class with one int32 field; 16777217 is stored, then the float 0.5 (bits `0x3F000000`) is inserted; float32 has 24 bits of precision. -/
theorem float_insert_loses_other :
    let hD := scalar_int (d := .i32) rfl
    let big := given .off hD 42 (one .i32 16777217 rfl (by simp [Holds]))
    let around : Item (scalar .i32) → Item (scalar .i32) := fun s => if s = big.stored then stored hD (one .i32 16777216 rfl (by simp [Holds])) else s
    let words := [BitVec.ofNat 32 0x3F000000]
    let hp := hashPair .off [.w32 words] 42
    let half : Probe (Item (scalar .i32)) := ⟨hp.1.toNat, hp.2.toNat, (mixFingerprint hp.1 hp.2 0).toNat, words.map BitVec.toNat, fun _ => false, zeroI⟩
    let T := (insertP id (build zeroI 8 2 2 none) big).1
    (lookupP T big).2 = true ∧ (insertP around T half).2.1 = true ∧ (lookupP (insertP around T half).1 big).2 = false := by
  decide +kernel

def demoD : List (Dt × Nat) := [(.i32, 1), (.i8, 2)]

def demoG : Given demoD := ⟨[(.u8, [7]), (.i8, [-1, 3])], rfl, fun f h => by
  simp only [List.mem_cons, List.not_mem_nil, or_false] at h
  rcases h with rfl | rfl
  · exact ⟨rfl, fun n hn => by rw [List.mem_singleton] at hn; subst hn; simp [Holds]⟩
  · refine ⟨rfl, fun n hn => ?_⟩
    simp only [List.mem_cons, List.not_mem_nil, or_false] at hn
    rcases hn with rfl | rfl <;> simp [Holds]⟩

theorem demo_fits : Fits demoG := by
  intro p hp
  simp only [demoG, demoD, List.zip_cons_cons, List.zip_nil_right, List.mem_cons, List.not_mem_nil, or_false] at hp
  rcases hp with rfl | rfl
  · exact ⟨fun n hn => by rw [List.mem_singleton] at hn; subst hn; simp [Holds], .inr ⟨by decide, fun n hn => by rw [List.mem_singleton] at hn; subst hn; decide⟩⟩
  · refine ⟨fun n hn => ?_, .inl rfl⟩
    simp only [List.mem_cons, List.not_mem_nil, or_false] at hn
    rcases hn with rfl | rfl <;> simp [Holds]

/-- Non-vacuity: in a class with an int32 scalar and two bytes, the item `(7, (-1, 3))` given as uint8, int8 fits, alone and in a batch; its words. -/
example : (GOp.insert demoG : GOp demoD (Option Nat)).Ok ∧
    (GOp.parallelInsert .xla .safe [.u8, .i8] (by decide) [demoG, demoG] [true, true] none : GOp demoD (Option Nat)).Ok ∧ itemWords demoG.1 = [7, 0x3FF] ∧
    ValidParams 8 2 2 none := by
  refine ⟨demo_fits, ⟨fun g hg => ?_, by decide⟩, by decide +kernel, ⟨by decide, by decide, by decide +kernel, by intro m h; cases h⟩⟩
  simp only [List.mem_cons, List.not_mem_nil, or_false, or_self] at hg
  subst hg
  exact ⟨demo_fits, rfl⟩

end MixedTable

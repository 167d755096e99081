import Verif.BitpackProps

/-!
# C36: `packed_tensor` fields
-/

namespace Bitpack

open SortGroup

/-- Byte lists are determined by their length and their bits. -/
theorem bytes_ext {a b : List Nat} (hl : a.length = b.length) (ha : ∀ x ∈ a, x < 256) (hb : ∀ x ∈ b, x < 256)
    (h : ∀ q, byteBit a q = byteBit b q) : a = b := by
  apply List.ext_getElem hl
  intro i h1 h2
  apply Nat.eq_of_testBit_eq
  intro k
  by_cases hk : k < 8
  · have := h (8 * i + k)
    unfold byteBit at this
    rw [show (8 * i + k) / 8 = i by omega, show (8 * i + k) % 8 = k by omega, List.getD_eq_getElem?_getD,
      List.getD_eq_getElem?_getD, List.getElem?_eq_getElem h1, List.getElem?_eq_getElem h2] at this
    exact this
  · rw [testBit_ge (n := 8) (ha _ (List.getElem_mem h1)) (by omega),
      testBit_ge (n := 8) (hb _ (List.getElem_mem h2)) (by omega)]

theorem packRow_facts (vals : List Int) {bits : Nat} (h1 : 1 ≤ bits) (h32 : bits ≤ 32) :
    (packRow vals bits).length = packedNumBytes vals.length bits ∧ (∀ b ∈ packRow vals bits, b < 256) ∧
    ∀ q, byteBit (packRow vals bits) q = (stored bits (vals.getD (q / bits) 0)).testBit (q % bits) := by
  by_cases h0 : vals.length = 0
  · simp only [packRow, if_pos h0]
    have hv : vals = [] := List.length_eq_zero_iff.1 h0
    subst hv
    refine ⟨by simp, by simp [packedNumBytes], ?_⟩
    intro q
    simp [packedNumBytes, byteBit, stored_zero]
  by_cases hb1 : bits = 1
  · simp only [packRow, if_neg h0, if_pos hb1]
    have e : packbits (vals.map fun z => decide (z ≠ 0)) = toUint8 vals bits := by
      unfold toUint8; rw [if_pos hb1]
    rw [e]
    exact ⟨toUint8_length vals h1 h32, toUint8_lt vals bits, fun q => toUint8_bit vals h1 h32 q⟩
  · simp only [packRow, if_neg h0, if_neg hb1]
    obtain ⟨hL1, hL2, hv, hby, hbw, hbw2, _⟩ := block_facts h1
    have hP := packedNumBytes_bits vals.length h1 h32
    have hge := (ceilDiv_mul_ge vals.length hv).1
    generalize hpad : ceilDiv vals.length (blockVals bits) * blockVals bits = padded at *
    have hW := (ceilDiv_mul_ge (padded * bits) (k := 32) (by decide)).1
    generalize hlen : ceilDiv (padded * bits) 32 = len at *
    generalize hN : packedNumBytes vals.length bits = N at *
    have hlenN : N ≤ 4 * len := by omega
    refine ⟨?_, ?_, ?_⟩
    · rw [List.length_take, bytesOfWords_length, packXla_length]; omega
    · intro b hb; exact bytesOfWords_lt _ b (List.mem_of_mem_take hb)
    · intro q
      by_cases hq : q < padded * bits
      · have hb : ∀ l : List Nat, byteBit (l.take N) q = byteBit l q := by
          intro l
          unfold byteBit
          rw [List.getD_eq_getElem?_getD, List.getElem?_take, if_pos (by omega), List.getD_eq_getElem?_getD]
        rw [hb, bytesOfWords_bit, packUniform_bit _ _ h1 h32 (by omega) hq, getD_map_toU32]
        have hd : (vals ++ List.replicate (padded - vals.length) 0).getD (q / bits) 0 = vals.getD (q / bits) 0 := by
          rw [List.getD_eq_getElem?_getD, List.getD_eq_getElem?_getD, List.getElem?_append]
          split
          · rfl
          · rename_i h
            rw [List.getElem?_eq_none (by omega : vals.length ≤ q / bits), List.getElem?_replicate]
            split <;> rfl
        rw [hd]
        exact toU32_testBit _ hb1 h32 (Nat.mod_lt _ h1)
      · have : vals.length ≤ q / bits :=
          Nat.le_trans hge ((Nat.le_div_iff_mul_le h1).2 (by omega))
        rw [getD_ge _ _ this, stored_zero, Nat.zero_testBit]
        unfold byteBit
        rw [getD_ge, Nat.zero_testBit]
        rw [List.length_take]; omega

/-- Packing a `packed_tensor` field gives the same bytes as `to_uint8`. -/
theorem packRow_eq_toUint8 (vals : List Int) {bits : Nat} (h1 : 1 ≤ bits) (h32 : bits ≤ 32) :
    packRow vals bits = toUint8 vals bits := by
  obtain ⟨a, b, c⟩ := packRow_facts vals h1 h32
  refine bytes_ext ?_ b (toUint8_lt _ _) ?_
  · rw [a, toUint8_length vals h1 h32]
  · intro q; rw [c, toUint8_bit vals h1 h32]

theorem unpackRow_packRow (vals : List Int) {bits : Nat} (h1 : 1 ≤ bits) (h32 : bits ≤ 32)
    (hsz : vals.length * bits ≤ 2 ^ 32) : unpackRow (packRow vals bits) vals.length bits = vals.map (stored bits) := by
  obtain ⟨hl, hlt, hb⟩ := packRow_facts vals h1 h32
  have hge := packedNumBytes_ge vals.length h1 h32
  unfold unpackRow
  split
  · rename_i h0
    have hv : vals = [] := List.length_eq_zero_iff.1 h0
    subst hv; rfl
  split
  · rename_i h0 hb1
    have e := bitpack_roundtrip vals h1 h32
    rw [← packRow_eq_toUint8 vals h1 h32] at e
    unfold fromUint8 at e
    rw [if_neg h0, if_pos hb1] at e
    exact e
  · rename_i h0 hb1
    obtain ⟨w1, w2, w3⟩ := wordsOfBytes_spec _ hlt
    apply List.ext_getElem?
    intro i
    rw [tab_getElem?]
    split
    · rename_i hi
      rw [List.getElem?_map, List.getElem?_eq_getElem hi, Option.map_some]
      congr 1
      have hpos : i * bits + bits ≤ vals.length * bits := by
        rw [← Nat.succ_mul]; exact Nat.mul_le_mul_right _ hi
      apply Nat.eq_of_testBit_eq
      intro k
      rw [Nat.mod_eq_of_lt (by omega), decode_testBit w2 h32 (by omega), w3, hb]
      by_cases hk : k < bits
      · rw [decide_eq_true hk, Bool.true_and, Nat.mul_comm, Nat.mul_add_div h1, Nat.mul_add_mod, Nat.div_eq_of_lt hk,
          Nat.mod_eq_of_lt hk, Nat.add_zero, List.getD_eq_getElem?_getD, List.getElem?_eq_getElem hi]
        rfl
      · rw [decide_eq_false hk, Bool.false_and, testBit_ge (stored_lt _ _) (by omega)]
    · rename_i hi
      rw [List.getElem?_eq_none (by simp; omega)]

theorem packedNumBytes_pos {n bits : Nat} (hn : 0 < n) (h1 : 1 ≤ bits) (h32 : bits ≤ 32) : 0 < packedNumBytes n bits := by
  have := packedNumBytes_ge n h1 h32
  have h2 := Nat.mul_le_mul hn h1
  omega

/-- Round trip of a whole field: any number of rows. -/
theorem unpackValue_packValue (data : List Int) {n bits : Nat} (hn : 0 < n) (h1 : 1 ≤ bits) (h32 : bits ≤ 32)
    (hsz : n * bits ≤ 2 ^ 32) (hd : data.length % n = 0) :
    ∃ p, packValue data n bits = some p ∧ p.length = data.length / n * packedNumBytes n bits ∧ (∀ b ∈ p, b < 256) ∧
      unpackValue p n bits = some (data.map (stored bits)) := by
  have hlen : ∀ r ∈ rows n data, (packRow r bits).length = packedNumBytes n bits := by
    intro r hr
    rw [(packRow_facts r h1 h32).1, mem_rows_length hr]
  have hN := packedNumBytes_pos hn h1 h32
  refine ⟨_, if_neg (by omega), ?_, ?_, ?_⟩
  · rw [flatMap_const_length _ hlen, rows_length]
  · intro b hb
    obtain ⟨r, hr, hb⟩ := List.mem_flatMap.1 hb
    exact (packRow_facts r h1 h32).2.1 b hb
  · unfold unpackValue
    rw [if_neg (by omega)]
    have hrows : rows (packedNumBytes n bits) ((rows n data).flatMap fun r => packRow r bits) =
        (rows n data).map fun r => packRow r bits := by
      apply List.ext_getElem?
      intro j
      by_cases hj : j < data.length / n
      · rw [rows_getElem? _ _ _ (by rw [flatMap_const_length _ hlen, rows_length, Nat.mul_div_cancel _ hN]; exact hj),
          List.getElem?_map, rows_getElem? _ _ _ hj, Option.map_some]
        congr 1
        have hm : (data.drop (j * n)).take n ∈ rows n data := List.mem_of_getElem? (rows_getElem? _ _ _ hj)
        apply List.ext_getElem?
        intro t
        rw [List.getElem?_take]
        split
        · rename_i ht
          rw [List.getElem?_drop, flatMap_const_getElem? hN _ hlen, Nat.mul_comm j, Nat.mul_add_div hN,
            Nat.div_eq_of_lt ht, Nat.add_zero, Nat.mul_add_mod, Nat.mod_eq_of_lt ht, rows_getElem? _ _ _ hj]
          rfl
        · rename_i ht
          rw [List.getElem?_eq_none (by rw [hlen _ hm]; omega)]
      · rw [List.getElem?_eq_none (by rw [rows_length, flatMap_const_length _ hlen, rows_length, Nat.mul_div_cancel _ hN]; omega),
          List.getElem?_eq_none (by rw [List.length_map, rows_length]; omega)]
    rw [hrows, List.flatMap_map]
    congr 1
    have e : (rows n data).flatMap (fun r => unpackRow (packRow r bits) n bits) =
        (rows n data).flatMap fun r => r.map (stored bits) := by
      rw [List.flatMap_def, List.flatMap_def]
      congr 1
      apply List.map_congr_left
      intro r hr
      have hr' := mem_rows_length hr
      rw [← hr', unpackRow_packRow r h1 h32 (by rw [hr']; exact hsz)]
    rw [e]
    conv => rhs; rw [← rows_flatten n hn data hd, List.map_flatten]
    rw [List.flatMap_def]

theorem size_append (a b : List Nat) : size (a ++ b) = size a * size b := by
  induction a with
  | nil => simp [size]
  | cons x a ih => simp [size, ih, Nat.mul_assoc]

/-- A logical value for a packed field: shape `batch ++ ushape`, as many elements as the shape says. -/
def WellShaped {α : Type u} (batch ushape : List Nat) (v : Arr α) : Prop :=
  v.shape = batch ++ ushape ∧ v.data.length = size v.shape

theorem unpackField_packField {v : Arr Int} {bits : Nat} {us batch : List Nat} (hw : WellShaped batch us v)
    (hn : 0 < size us) (h1 : 1 ≤ bits) (h32 : bits ≤ 32) (hsz : size us * bits ≤ 2 ^ 32) :
    ∃ p, packField v bits us batch = some p ∧ WellShaped batch [packedNumBytes (size us) bits] p ∧
      unpackField p bits us batch = some ⟨batch ++ us, v.data.map (stored bits)⟩ := by
  obtain ⟨hs, hd⟩ := hw
  rw [hs, size_append] at hd
  obtain ⟨p, hp, hpl, hplt, hup⟩ := unpackValue_packValue v.data hn h1 h32 hsz (by rw [hd]; exact Nat.mul_mod_left _ _)
  refine ⟨⟨batch ++ [packedNumBytes (size us) bits], p.map Int.ofNat⟩, ?_, ⟨rfl, ?_⟩, ?_⟩
  · unfold packField
    rw [if_neg (by rw [hs]; simp), if_neg (by rw [hs]; simp), hp]
    rfl
  · rw [List.length_map, hpl, size_append, hd, Nat.mul_div_cancel _ hn]
    simp [size]
  · unfold unpackField
    rw [if_neg (by simp)]
    have e : (p.map Int.ofNat).map (fun z => (z % 256).toNat) = p := by
      rw [List.map_map]
      conv => rhs; rw [← List.map_id p]
      apply List.map_congr_left
      intro b hb
      have := hplt b hb
      show ((b : Int) % 256).toNat = b
      omega
    simp only [e, hup, Option.bind_some]
    rw [if_pos (by rw [List.length_map, hd, size_append])]

theorem mem_of_lookup {α : Type u} {l : List (String × α)} {k : String} {v : α} (h : l.lookup k = some v) :
    (k, v) ∈ l := by
  induction l with
  | nil => cases h
  | cons f l ih =>
    obtain ⟨n, w⟩ := f
    rw [List.lookup_cons] at h
    by_cases hk : k = n
    · subst hk
      rw [beq_self_eq_true] at h
      cases h; simp
    · have : (k == n) = false := by simpa using hk
      rw [this] at h
      exact List.mem_cons_of_mem _ (ih h)

theorem lookup_replace (inst upd : Fields) (name : String) :
    (replace inst upd).lookup name = (inst.lookup name).map fun old => (upd.lookup name).getD old := by
  induction inst with
  | nil => rfl
  | cons f inst ih =>
    obtain ⟨n, v⟩ := f
    simp only [replace, List.map_cons, List.lookup_cons] at *
    by_cases h : name = n
    · subst h; simp
    · have : (name == n) = false := by simpa using h
      rw [this]; exact ih

/-- All keyword arguments are acceptable: they name packed fields, have the right shape and a non-empty intrinsic shape. -/
def GoodArgs (cls : List (String × Desc)) (batch : List Nat) (kw : Fields) : Prop :=
  ∀ (name : String) (v : Arr Int), (name, v) ∈ kw → ∃ bits us, cls.lookup name = some (.packed bits us) ∧
    WellShaped batch us v ∧ 0 < size us ∧ 1 ≤ bits ∧ bits ≤ 32 ∧ size us * bits ≤ 2 ^ 32

theorem packUpdates_spec {cls : List (String × Desc)} {batch : List Nat} {kw : Fields} (h : GoodArgs cls batch kw) :
    ∃ upd, packUpdates cls batch kw = some upd ∧
      ∀ name, match kw.lookup name with
        | none => upd.lookup name = none
        | some v => ∃ bits us p, cls.lookup name = some (.packed bits us) ∧ upd.lookup name = some p ∧
            WellShaped batch [packedNumBytes (size us) bits] p ∧
            unpackField p bits us batch = some ⟨batch ++ us, v.data.map (stored bits)⟩ := by
  induction kw with
  | nil => exact ⟨[], rfl, fun name => rfl⟩
  | cons f kw ih =>
    obtain ⟨n, v⟩ := f
    obtain ⟨upd, hu, hspec⟩ := ih fun name v hm => h name v (by simp [hm])
    obtain ⟨bits, us, hc, hw, hn, h1, h32, hsz⟩ := h n v (by simp)
    obtain ⟨p, hp, hpw, hup⟩ := unpackField_packField hw hn h1 h32 hsz
    refine ⟨(n, p) :: upd, ?_, ?_⟩
    · simp only [packUpdates, hc, hp, hu, Option.bind_some, Option.map_some]
    · intro name
      rw [List.lookup_cons, List.lookup_cons]
      by_cases hname : name = n
      · subst hname
        rw [beq_self_eq_true]
        exact ⟨bits, us, p, hc, rfl, hpw, hup⟩
      · have : (name == n) = false := by simpa using hname
        rw [this]
        exact hspec name

/-- **C36.**  For every class, batch shape, intrinsic shapes and widths: `set_unpacked(**kw)` succeeds on well-shaped
arguments, leaves every field that is not mentioned unchanged, and reading a mentioned field back through `<field>_unpacked`
gives an array of the same shape with every value as stored (the same value if it is in range). -/
theorem set_unpacked_spec {cls : List (String × Desc)} {batch : List Nat} {inst kw : Fields} (h : GoodArgs cls batch kw)
    (hinst : ∀ name v, kw.lookup name = some v → (inst.lookup name).isSome) :
    ∃ inst', setUnpacked cls batch inst kw = some inst' ∧
      inst'.map Prod.fst = inst.map Prod.fst ∧
      (∀ name, kw.lookup name = none → inst'.lookup name = inst.lookup name) ∧
      ∀ (name : String) (v : Arr Int), kw.lookup name = some v →
        ∃ bits us, cls.lookup name = some (.packed bits us) ∧
          getUnpacked cls batch inst' name = some ⟨v.shape, v.data.map (stored bits)⟩ := by
  obtain ⟨upd, hu, hspec⟩ := packUpdates_spec h
  refine ⟨replace inst upd, ?_, ?_, ?_, ?_⟩
  · unfold setUnpacked; rw [hu]; rfl
  · unfold replace; rw [List.map_map]; rfl
  · intro name hn
    have := hspec name
    rw [hn] at this
    simp only at this
    rw [lookup_replace, this]
    cases inst.lookup name <;> rfl
  · intro name v hv
    have := hspec name
    rw [hv] at this
    obtain ⟨bits, us, p, hc, hp, _, hup⟩ := this
    refine ⟨bits, us, hc, ?_⟩
    unfold getUnpacked
    rw [hc, lookup_replace, hp]
    have hi := hinst name v hv
    cases hin : inst.lookup name with
    | none => rw [hin] at hi; cases hi
    | some old =>
      have hmem : ∃ v', (name, v') ∈ kw ∧ v' = v := ⟨v, mem_of_lookup hv, rfl⟩
      obtain ⟨v', hm, rfl⟩ := hmem
      obtain ⟨bits', us', hc', hw, _⟩ := h name v' hm
      rw [hc] at hc'; cases hc'
      show unpackField p bits us batch = _
      rw [hup, hw.1]

/-- Arguments of `from_unpacked`: as for `set_unpacked`, and anything for ordinary fields. -/
def GoodFrom (cls : List (String × Desc)) (batch : List Nat) (kw : Fields) : Prop :=
  ∀ (name : String) (v : Arr Int), (name, v) ∈ kw → ∃ d, cls.lookup name = some d ∧
    ∀ bits us, d = .packed bits us →
      WellShaped batch us v ∧ 0 < size us ∧ 1 ≤ bits ∧ bits ≤ 32 ∧ size us * bits ≤ 2 ^ 32

/-- What `from_unpacked` stores for a given argument. -/
def Holds (batch : List Nat) (d : Desc) (v p : Arr Int) : Prop :=
  match d with
  | .plain => p = v
  | .packed bits us => unpackField p bits us batch = some ⟨batch ++ us, v.data.map (stored bits)⟩

theorem fromOne_spec {batch : List Nat} {d : Desc} {v : Arr Int}
    (h : ∀ bits us, d = .packed bits us →
      WellShaped batch us v ∧ 0 < size us ∧ 1 ≤ bits ∧ bits ≤ 32 ∧ size us * bits ≤ 2 ^ 32) :
    ∃ p, fromOne batch d v = some p ∧ Holds batch d v p := by
  cases d with
  | plain => exact ⟨v, rfl, rfl⟩
  | packed bits us =>
    obtain ⟨hw, hn, h1, h32, hsz⟩ := h bits us rfl
    obtain ⟨p, hp, _, hup⟩ := unpackField_packField hw hn h1 h32 hsz
    exact ⟨p, hp, hup⟩

theorem fromUpdates_spec {cls : List (String × Desc)} {batch : List Nat} {kw : Fields} (h : GoodFrom cls batch kw) :
    ∃ upd, fromUpdates cls batch kw = some upd ∧
      ∀ name, match kw.lookup name with
        | none => upd.lookup name = none
        | some v => ∃ d p, cls.lookup name = some d ∧ upd.lookup name = some p ∧ Holds batch d v p := by
  induction kw with
  | nil => exact ⟨[], rfl, fun name => rfl⟩
  | cons f kw ih =>
    obtain ⟨n, v⟩ := f
    obtain ⟨upd, hu, hspec⟩ := ih fun name v hm => h name v (by simp [hm])
    obtain ⟨d, hc, hg⟩ := h n v (by simp)
    obtain ⟨p, hp, hup⟩ := fromOne_spec hg
    refine ⟨(n, p) :: upd, ?_, ?_⟩
    · simp only [fromUpdates, hc, hp, hu, Option.bind_some, Option.map_some]
    · intro name
      rw [List.lookup_cons, List.lookup_cons]
      by_cases hname : name = n
      · subst hname
        rw [beq_self_eq_true]
        exact ⟨d, p, hc, rfl, hup⟩
      · have : (name == n) = false := by simpa using hname
        rw [this]
        exact hspec name

theorem fromAll_spec {batch : List Nat} {kw : Fields} (cls : List (String × Desc))
    (h : ∀ f ∈ cls, ∃ v, kw.lookup f.1 = some v ∧ ∀ bits us, f.2 = .packed bits us →
      WellShaped batch us v ∧ 0 < size us ∧ 1 ≤ bits ∧ bits ≤ 32 ∧ size us * bits ≤ 2 ^ 32) :
    ∃ r, fromAll batch kw cls = some r ∧ r.map Prod.fst = cls.map Prod.fst ∧
      ∀ (name : String) (d : Desc), cls.lookup name = some d →
        ∃ v p, kw.lookup name = some v ∧ r.lookup name = some p ∧ Holds batch d v p := by
  induction cls with
  | nil => exact ⟨[], rfl, rfl, fun name d hd => by cases hd⟩
  | cons f cls ih =>
    obtain ⟨n, d⟩ := f
    obtain ⟨r, hr, hf, hspec⟩ := ih fun f hm => h f (by simp [hm])
    obtain ⟨v, hv, hg⟩ := h (n, d) (by simp)
    simp only at hv
    obtain ⟨p, hp, hup⟩ := fromOne_spec hg
    refine ⟨(n, p) :: r, ?_, by simp [hf], ?_⟩
    · simp only [fromAll, hv, hp, hr, Option.bind_some, Option.map_some]
    · intro name d' hd'
      rw [List.lookup_cons] at hd'
      rw [List.lookup_cons]
      by_cases hname : name = n
      · subst hname
        rw [beq_self_eq_true] at hd' ⊢
        cases hd'
        exact ⟨v, p, hv, rfl, hup⟩
      · have : (name == n) = false := by simpa using hname
        rw [this] at hd' ⊢
        exact hspec name d' hd'

/-- **C36, `from_unpacked`.**  For well-shaped arguments the result has every given packed field readable as stored, every
given ordinary field as given, and every field that is not given as in `default(shape)`. -/
theorem from_unpacked_spec {cls : List (String × Desc)} {batch : List Nat} {dflt kw : Fields} (h : GoodFrom cls batch kw)
    (hnames : dflt.map Prod.fst = cls.map Prod.fst) (hnd : (cls.map Prod.fst).Nodup) :
    ∃ inst, fromUnpacked cls batch dflt kw = some inst ∧ inst.map Prod.fst = cls.map Prod.fst ∧
      ∀ (name : String) (d : Desc), cls.lookup name = some d →
        match kw.lookup name with
        | none => inst.lookup name = dflt.lookup name
        | some v => ∃ p, inst.lookup name = some p ∧ Holds batch d v p := by
  have hlk : ∀ (l : List (String × Desc)), (l.map Prod.fst).Nodup → ∀ f ∈ l, l.lookup f.1 = some f.2 := by
    intro l
    induction l with
    | nil => intro _ f hf; cases hf
    | cons g l ih =>
      intro hn f hf
      rw [List.map_cons, List.nodup_cons] at hn
      rw [List.lookup_cons]
      rcases List.mem_cons.1 hf with rfl | hf
      · simp
      · have hne : (f.1 == g.1) = false := by
          rw [beq_eq_false_iff_ne]
          intro he
          exact hn.1 (he ▸ List.mem_map_of_mem hf)
        rw [hne]
        exact ih hn.2 f hf
  unfold fromUnpacked
  by_cases hall : (cls.all fun f => (kw.lookup f.1).isSome) = true
  · rw [if_pos hall]
    rw [List.all_eq_true] at hall
    obtain ⟨r, hr, hf, hs⟩ := fromAll_spec (batch := batch) (kw := kw) cls (by
      intro f hm
      obtain ⟨v, hv⟩ := Option.isSome_iff_exists.1 (hall f hm)
      obtain ⟨d, hd, hg⟩ := h f.1 v (mem_of_lookup hv)
      rw [hlk cls hnd f hm] at hd
      cases hd
      exact ⟨v, hv, hg⟩)
    refine ⟨r, hr, hf, ?_⟩
    intro name d hd
    obtain ⟨v, p, hv, hp, hh⟩ := hs name d hd
    rw [hv]
    exact ⟨p, hp, hh⟩
  · rw [if_neg hall]
    obtain ⟨upd, hu, hspec⟩ := fromUpdates_spec h
    refine ⟨replace dflt upd, by rw [hu]; rfl, by rw [← hnames]; unfold replace; rw [List.map_map]; rfl, ?_⟩
    intro name d hd
    have hs := hspec name
    rw [lookup_replace]
    cases hk : kw.lookup name with
    | none =>
      rw [hk] at hs
      simp only at hs ⊢
      rw [hs]
      cases dflt.lookup name <;> rfl
    | some v =>
      rw [hk] at hs
      obtain ⟨d', p, hc, hp, hh⟩ := hs
      rw [hd] at hc; cases hc
      simp only [hp]
      have hmem : name ∈ dflt.map Prod.fst := by
        rw [hnames]; exact List.mem_map.2 ⟨(name, d), mem_of_lookup hd, rfl⟩
      have : ∀ (l : Fields), name ∈ l.map Prod.fst → ∃ old, l.lookup name = some old := by
        intro l
        induction l with
        | nil => intro h; cases h
        | cons g l ih =>
          intro hm
          rw [List.lookup_cons]
          by_cases hg : name = g.1
          · exact ⟨g.2, by rw [hg, beq_self_eq_true]⟩
          · have : (name == g.1) = false := by simpa using hg
            rw [this]
            rw [List.map_cons, List.mem_cons] at hm
            exact ih (hm.resolve_left hg)
      obtain ⟨old, ho⟩ := this dflt hmem
      exact ⟨p, by rw [ho]; rfl, hh⟩

/-- Non-vacuity: a class with a 3-bit field of shape (2, 2) and an ordinary field, batch shape (2,); one value is out of
range and is reduced modulo 8, its neighbours are intact. -/
example :
    let cls := [("code", Desc.packed 3 [2, 2]), ("cost", Desc.plain)]
    let inst : Fields := [("code", ⟨[2, 3], List.replicate 6 0⟩), ("cost", ⟨[2], [10, 20]⟩)]
    let kw : Fields := [("code", ⟨[2, 2, 2], [1, 2, 3, 4, 5, 6, 15, 0]⟩)]
    (setUnpacked cls [2] inst kw).map (fun i => (getUnpacked cls [2] i "code", i.lookup "cost")) =
      some (some ⟨[2, 2, 2], [1, 2, 3, 4, 5, 6, 7, 0]⟩, some ⟨[2], [10, 20]⟩) := by decide +kernel

example : GoodArgs [("code", Desc.packed 3 [2, 2]), ("cost", Desc.plain)] [2]
    [("code", ⟨[2, 2, 2], [1, 2, 3, 4, 5, 6, 15, 0]⟩)] := by
  intro name v hm
  simp only [List.mem_cons, List.not_mem_nil, or_false, Prod.mk.injEq] at hm
  obtain ⟨rfl, rfl⟩ := hm
  exact ⟨3, [2, 2], rfl, ⟨rfl, rfl⟩, by decide, by decide, by decide, by decide⟩

end Bitpack

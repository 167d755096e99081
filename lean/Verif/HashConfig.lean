import Verif.HashConfigModel

/-!
# C85: settings of hashing and of aggregate packing
-/

namespace HashModel

open Agg Bitpack
open Bgpq (Py Env Device CfgErr)
open HashTable (word)

/-! ## Specification -/

/-- The documented settings of hashing. -/
structure HashOk (py : Py) (env : Env) : Prop where
  agg : word py ((env "XTRUCTURE_HASH_AGG_MODE").getD "raw") ∈ ["raw", "packed", "auto"]
  stream : word py ((env "XTRUCTURE_HASH_STREAM").getD "auto") ∈ ["off", "on", "auto"]
  threshold : ∀ v, env "XTRUCTURE_HASH_STREAM_THRESHOLD_U32" = some v → ∃ n : Int, py.int v = some n ∧ 0 ≤ n

/-- Hashing goes through the packed words: asked for, or `auto` on a TPU. -/
def UsesPacked (py : Py) (env : Env) (dev : Device) : Prop :=
  word py ((env "XTRUCTURE_HASH_AGG_MODE").getD "raw") = "packed" ∨
    (word py ((env "XTRUCTURE_HASH_AGG_MODE").getD "raw") = "auto" ∧ dev = .tpu)

/-- Packing uses the Pallas kernel: asked for, or `auto` on a TPU. -/
def UsesPallas (py : Py) (env : Env) (dev : Device) : Prop :=
  word py ((env "XTRUCTURE_AGG_BITPACK_PACK_BACKEND").getD "auto") = "pallas" ∨
    (word py ((env "XTRUCTURE_AGG_BITPACK_PACK_BACKEND").getD "auto") = "auto" ∧ dev = .tpu)

/-- The documented settings of packing. -/
structure PackOk (py : Py) (env : Env) (dev : Device) : Prop where
  backend : word py ((env "XTRUCTURE_AGG_BITPACK_PACK_BACKEND").getD "auto") ∈ ["auto", "pallas", "xla", "off"]
  tile : UsesPallas py env dev → HashTable.IntOk py env "XTRUCTURE_AGG_BITPACK_PACK_WORD_TILE"
  device : UsesPallas py env dev → dev ≠ .cpu

/-! ## Parsing -/

section Parse

variable {py : Py} {env : Env}

theorem aggMode_spec : 
    (word py ((env "XTRUCTURE_HASH_AGG_MODE").getD "raw") ∈ ["raw", "packed", "auto"] →
      ∃ m, aggMode py env = .ok m ∧ ∀ dev, (useAggPacked dev true m = true ↔ UsesPacked py env dev)) ∧
    (word py ((env "XTRUCTURE_HASH_AGG_MODE").getD "raw") ∉ ["raw", "packed", "auto"] → aggMode py env = .error .value) := by
  unfold aggMode UsesPacked word
  generalize py.lower (py.strip ((env "XTRUCTURE_HASH_AGG_MODE").getD "raw")) = v
  simp only
  constructor
  · intro h
    simp only [List.mem_cons, List.not_mem_nil, or_false] at h
    rcases h with rfl | rfl | rfl
    · exact ⟨.raw, by simp, fun dev => by simp [useAggPacked]⟩
    · exact ⟨.packed, by simp, fun dev => by simp [useAggPacked]⟩
    · exact ⟨.auto, by simp, fun dev => by simp [useAggPacked]⟩
  · intro h
    simp only [List.mem_cons, List.not_mem_nil, or_false, not_or] at h
    rw [if_neg h.1, if_neg h.2.1, if_neg h.2.2]

theorem streamMode_spec :
    (word py ((env "XTRUCTURE_HASH_STREAM").getD "auto") ∈ ["off", "on", "auto"] → ∃ f, streamMode py env = .ok f) ∧
    (word py ((env "XTRUCTURE_HASH_STREAM").getD "auto") ∉ ["off", "on", "auto"] → streamMode py env = .error .value) := by
  unfold streamMode word
  generalize py.lower (py.strip ((env "XTRUCTURE_HASH_STREAM").getD "auto")) = v
  simp only
  constructor
  · intro h
    simp only [List.mem_cons, List.not_mem_nil, or_false] at h
    rcases h with rfl | rfl | rfl
    · exact ⟨_, by simp; rfl⟩
    · exact ⟨_, by simp; rfl⟩
    · exact ⟨_, by simp; rfl⟩
  · intro h
    simp only [List.mem_cons, List.not_mem_nil, or_false, not_or] at h
    rw [if_neg h.1, if_neg h.2.1, if_neg h.2.2]

theorem streamThreshold_spec :
    ((∀ v, env "XTRUCTURE_HASH_STREAM_THRESHOLD_U32" = some v → ∃ n : Int, py.int v = some n ∧ 0 ≤ n) →
      ∃ t, streamThreshold py env = .ok t) ∧
    (¬ (∀ v, env "XTRUCTURE_HASH_STREAM_THRESHOLD_U32" = some v → ∃ n : Int, py.int v = some n ∧ 0 ≤ n) →
      streamThreshold py env = .error .value) := by
  unfold streamThreshold
  cases env "XTRUCTURE_HASH_STREAM_THRESHOLD_U32" with
  | none => exact ⟨fun _ => ⟨_, rfl⟩, fun h => absurd (fun v hv => by cases hv) h⟩
  | some v =>
    simp only [Option.some.injEq, forall_eq']
    cases py.int v with
    | none => exact ⟨(fun h => (by obtain ⟨n, h, _⟩ := h; cases h)), fun _ => rfl⟩
    | some n =>
      simp only [Option.some.injEq, exists_eq_left']
      by_cases h : n < 0
      · rw [if_pos h]; exact ⟨fun h' => by omega, fun _ => rfl⟩
      · rw [if_neg h]; exact ⟨fun _ => ⟨_, rfl⟩, fun h' => by omega⟩

/-- **C85 (1).**  A class is decorated under exactly the documented settings of hashing, all others raise `ValueError`; a class with an aggregate layout hashes
its packed words iff this is asked for, or left to `auto` on a TPU; a class without one never does. -/
theorem hash_settings_accepted (dev : Device) (hasAgg : Bool) :
    (HashOk py env → ∃ w, hashWay py env dev hasAgg = .ok w ∧ (w = .packed ↔ hasAgg = true ∧ UsesPacked py env dev)) ∧
    (¬ HashOk py env → hashWay py env dev hasAgg = .error .value) := by
  have key : hashWay py env dev hasAgg = match aggMode py env with
      | .error e => .error e
      | .ok m => match streamMode py env with
        | .error e => .error e
        | .ok s => match streamThreshold py env with
          | .error e => .error e
          | .ok t => .ok (if useAggPacked dev hasAgg m then .packed else .raw (s t)) := by
    unfold hashWay
    cases aggMode py env with
    | error e => rfl
    | ok m => cases streamMode py env with
      | error e => rfl
      | ok s => cases streamThreshold py env <;> rfl
  rw [key]
  constructor
  · intro h
    obtain ⟨m, e1, e2⟩ := aggMode_spec.1 h.agg
    obtain ⟨s, e3⟩ := streamMode_spec.1 h.stream
    obtain ⟨t, e4⟩ := streamThreshold_spec.1 h.threshold
    rw [e1, e3, e4]
    refine ⟨_, rfl, ?_⟩
    cases hasAgg with
    | false => simp [useAggPacked]
    | true =>
      rw [← e2 dev]
      cases useAggPacked dev true m <;> simp
  · intro h
    by_cases h1 : word py ((env "XTRUCTURE_HASH_AGG_MODE").getD "raw") ∈ ["raw", "packed", "auto"]
    · obtain ⟨m, e1, e2⟩ := aggMode_spec.1 h1
      rw [e1]
      by_cases h2 : word py ((env "XTRUCTURE_HASH_STREAM").getD "auto") ∈ ["off", "on", "auto"]
      · obtain ⟨s, e3⟩ := streamMode_spec.1 h2
        rw [e3]
        have h3 := fun h3 => h ⟨h1, h2, h3⟩
        rw [streamThreshold_spec.2 h3]
      · rw [streamMode_spec.2 h2]
    · rw [aggMode_spec.2 h1]

theorem packPallasChosen_spec (dev : Device) :
    (word py ((env "XTRUCTURE_AGG_BITPACK_PACK_BACKEND").getD "auto") ∈ ["auto", "pallas", "xla", "off"] →
      ∃ b, packPallasChosen py env dev = .ok b ∧ (b = true ↔ UsesPallas py env dev)) ∧
    (word py ((env "XTRUCTURE_AGG_BITPACK_PACK_BACKEND").getD "auto") ∉ ["auto", "pallas", "xla", "off"] →
      packPallasChosen py env dev = .error .value) := by
  unfold packPallasChosen UsesPallas word
  generalize py.lower (py.strip ((env "XTRUCTURE_AGG_BITPACK_PACK_BACKEND").getD "auto")) = v
  simp only
  constructor
  · intro h
    simp only [List.mem_cons, List.not_mem_nil, or_false] at h
    rcases h with rfl | rfl | rfl | rfl
    · exact ⟨_, by simp; rfl, by simp⟩
    · exact ⟨true, by simp, by simp⟩
    · exact ⟨false, by simp, by simp⟩
    · exact ⟨false, by simp, by simp⟩
  · intro h
    simp only [List.mem_cons, List.not_mem_nil, or_false, not_or] at h
    rw [if_neg h.2.2.2, if_neg h.2.1, if_neg h.2.2.1, if_neg h.1]

theorem packWordTile_spec :
    (HashTable.IntOk py env "XTRUCTURE_AGG_BITPACK_PACK_WORD_TILE" → ∃ t, packWordTile py env = .ok t ∧ 0 < t) ∧
    (¬ HashTable.IntOk py env "XTRUCTURE_AGG_BITPACK_PACK_WORD_TILE" → packWordTile py env = .error .value) := by
  unfold packWordTile HashTable.IntOk
  cases env "XTRUCTURE_AGG_BITPACK_PACK_WORD_TILE" with
  | none => exact ⟨fun _ => ⟨4, rfl, by decide⟩, fun h => absurd (fun v hv => by cases hv) h⟩
  | some v =>
    simp only [Option.some.injEq, forall_eq', word]
    by_cases hv : py.lower (py.strip v) ∈ ["", "none", "auto"]
    · rw [if_pos hv]
      exact ⟨fun _ => ⟨4, rfl, by decide⟩, fun h => absurd (Or.inl hv) h⟩
    · rw [if_neg hv]
      cases py.int (py.lower (py.strip v)) with
      | none =>
        exact ⟨(fun h => (by rcases h with h | ⟨n, h, _⟩; exact absurd h hv; cases h)), fun _ => rfl⟩
      | some n =>
        simp only [Option.some.injEq, exists_eq_left']
        by_cases h : n ≤ 0
        · rw [if_pos h]
          exact ⟨fun h' => by rcases h' with h' | h'; exact absurd h' hv; omega, fun _ => rfl⟩
        · rw [if_neg h]
          exact ⟨fun _ => ⟨_, rfl, by omega⟩, fun h' => absurd (Or.inr (by omega)) h'⟩

/-- **C85 (1), packing.**  `packed` accepts exactly the documented settings; the tile is looked at only if Pallas is used. -/
theorem pack_settings_accepted (dev : Device) :
    (PackOk py env dev → ∃ w, packWay py env dev = .ok w ∧ (w ≠ .xla ↔ UsesPallas py env dev) ∧ ∀ t, w = .pallas t → 0 < t) ∧
    (¬ PackOk py env dev → ∃ e, packWay py env dev = .error e) := by
  have key : packWay py env dev = match packPallasChosen py env dev with
      | .error e => .error e
      | .ok b => if b then (match packWordTile py env with
        | .error e => .error e
        | .ok t => if dev = .cpu then .error .pallas else .ok (.pallas t)) else .ok .xla := by
    unfold packWay
    cases packPallasChosen py env dev with
    | error e => rfl
    | ok b =>
      cases b with
      | false => rfl
      | true => cases packWordTile py env <;> rfl
  rw [key]
  constructor
  · intro h
    obtain ⟨b, e1, e2⟩ := (packPallasChosen_spec dev).1 h.backend
    rw [e1]
    cases b with
    | false => exact ⟨.xla, rfl, ⟨fun h' => absurd rfl h', fun h' => by cases (e2.2 h')⟩, fun t ht => by cases ht⟩
    | true =>
      have hp := e2.1 rfl
      obtain ⟨t, e3, e4⟩ := packWordTile_spec.1 (h.tile hp)
      rw [e3]
      simp only [if_true, if_neg (h.device hp)]
      exact ⟨_, rfl, ⟨fun _ => hp, fun _ h' => by cases h'⟩, fun t' ht => by cases ht; exact e4⟩
  · intro h
    by_cases h1 : word py ((env "XTRUCTURE_AGG_BITPACK_PACK_BACKEND").getD "auto") ∈ ["auto", "pallas", "xla", "off"]
    · obtain ⟨b, e1, e2⟩ := (packPallasChosen_spec (py := py) (env := env) dev).1 h1
      rw [e1]
      cases b with
      | false =>
        refine absurd ⟨h1, fun hp => ?_, fun hp => ?_⟩ h
        · cases e2.2 hp
        · cases e2.2 hp
      | true =>
        by_cases h2 : HashTable.IntOk py env "XTRUCTURE_AGG_BITPACK_PACK_WORD_TILE"
        · obtain ⟨t, e3, e4⟩ := packWordTile_spec.1 h2
          rw [e3]
          by_cases h3 : dev = .cpu
          · simp only [if_true, if_pos h3]
            exact ⟨_, rfl⟩
          · exact absurd ⟨h1, fun _ => h2, fun _ => h3⟩ h
        · rw [packWordTile_spec.2 h2]
          exact ⟨_, rfl⟩
    · rw [(packPallasChosen_spec dev).2 h1]
      exact ⟨_, rfl⟩

end Parse

/-! ## Packing -/

theorem kernel_isPack {k : Machine} (hk : k.Ok) {w : PackWay} (hw : ∀ t, w = .pallas t → 0 < t) : IsPackKernel (w.kernel k) := by
  cases w with
  | xla => exact xla_isPackKernel
  | pallas t => exact pallas_isPackKernel (hw t rfl) k.init (fun tb => k.order tb t) hk.1 fun tb => hk.2 tb t

/-- **C85 (2).**  The kernel, the tile, the device and the order in which the programs run do not show in `packed`: under any accepted settings it is what the
XLA kernel gives. -/
theorem packed_settings_agree {py : Py} {env : Env} {dev : Device} (hs : PackOk py env dev) {k : Machine} (hk : k.Ok) {c : Agg.Cls} (hw : c.Wf) {flatN : Nat}
    {x : Agg.Inst (List Int)} (hc : Conforms flatN c x) :
    packedCfg py env dev k c flatN x = .ok (packed packXla c flatN x) := by
  unfold packedCfg
  by_cases h0 : totalValues c = 0
  · rw [if_pos h0]
  · rw [if_neg h0]
    obtain ⟨w, e, _, ht⟩ := (pack_settings_accepted dev).1 hs
    rw [e]
    simp only
    rw [packed_eq (kernel_isPack hk ht) hw hc, packed_eq xla_isPackKernel hw hc]

/-! ## Classes without aggregate layout -/

/-- **C85 (3).**  A class without aggregate layout has the same bytes, words and hashes under all accepted settings and devices - unless it has leaves but all of
them are empty arrays, see `stream_setting_shows_empty`. -/
theorem plain_settings_agree_partial {s s' : Setup} (hs : HashOk s.py s.env0) (hs' : HashOk s'.py s'.env0) (x : List Leaf)
    (hx : x = [] ∨ uint32ed x ≠ []) (seed : W) :
    ∃ v, s.viewPlain x seed = .ok v ∧ s'.viewPlain x seed = .ok v := by
  have key : ∀ s : Setup, HashOk s.py s.env0 → s.viewPlain x seed = .ok (rawView .off x seed) := by
    intro s hs
    obtain ⟨w, e, hp⟩ := (hash_settings_accepted s.dev false).1 hs
    unfold Setup.viewPlain
    rw [e]
    cases w with
    | packed => exact absurd (hp.1 rfl).1 (by simp)
    | raw m =>
      simp only
      have a := hash_entry_points_agree_partial m x seed hx
      have b := hash_entry_points_agree_partial .off x seed hx
      unfold rawView
      rw [a.1, b.1, a.2.1, b.2.1]
  exact ⟨_, key s hs, key s' hs'⟩

/-- The setting shows for a class all of whose leaves are empty arrays: with streaming forced on the hash differs from the one with streaming off, for every
seed. -/
theorem stream_setting_shows_empty (x : List Leaf) (seed : W) (h1 : x ≠ []) (h2 : uint32ed x = []) :
    (rawView .on x seed).hash ≠ (rawView .off x seed).hash := by
  have e : hash .off x seed = (hashWithUint32ed x seed).1 := by
    unfold hash hashWithUint32ed Stream.streams
    rw [if_neg (by simp)]
  have := hash_entry_points_disagree_empty x seed h1 h2
  rw [← e] at this
  exact this

/-! ## Classes with aggregate layout -/

theorem num_inj {n : Nat} {sg : Bool} {a b : BitVec n} (h : num sg a = num sg b) : a = b := by
  unfold num at h
  cases sg with
  | true => exact BitVec.eq_of_toInt_eq h
  | false => exact BitVec.eq_of_toNat_eq (Int.ofNat.inj h)

theorem ints_inj {a b : DLeaf} (hd : a.dtype = b.dtype) (h : a.ints = b.ints) : a = b := by
  obtain ⟨sa, la⟩ := a
  obtain ⟨sb, lb⟩ := b
  simp only [DLeaf.dtype, Prod.mk.injEq] at hd
  obtain ⟨rfl, hk⟩ := hd
  congr 1
  cases la <;> cases lb <;> simp [Leaf.layout] at hk
  · refine congrArg _ ((List.map_inj_right ?_).1 h)
    intro x y; cases x <;> cases y <;> simp
  all_goals exact congrArg _ ((List.map_inj_right fun _ _ => num_inj).1 h)

theorem ints_length (d : DLeaf) : d.ints.length = d.leaf.layout.2 := by
  obtain ⟨sg, l⟩ := d
  cases l <;> simp [DLeaf.ints, Leaf.layout]

theorem imap_inj {α β γ : Type} {f : α → β} {g : α → γ} (hfg : ∀ a b, f a = f b → g a = g b → a = b) :
    ∀ (x y : Agg.Inst α), imap f x = imap f y → imap g x = imap g y → x = y
  | .nil, .nil, _, _ => rfl
  | .leaf n v r, .leaf n' v' r', h, h' => by
    simp only [imap, Agg.Inst.leaf.injEq] at h h'
    rw [h.1, hfg v v' h.2.1 h'.2.1, imap_inj hfg r r' h.2.2 h'.2.2]
  | .nested n s r, .nested n' s' r', h, h' => by
    simp only [imap, Agg.Inst.nested.injEq] at h h'
    rw [h.1, imap_inj hfg s s' h.2.1 h'.2.1, imap_inj hfg r r' h.2.2 h'.2.2]
  | .nil, .leaf _ _ _, h, _ => by simp [imap] at h
  | .nil, .nested _ _ _, h, _ => by simp [imap] at h
  | .leaf _ _ _, .nil, h, _ => by simp [imap] at h
  | .leaf _ _ _, .nested _ _ _, h, _ => by simp [imap] at h
  | .nested _ _ _, .nil, h, _ => by simp [imap] at h
  | .nested _ _ _, .leaf _ _ _, h, _ => by simp [imap] at h

/-- Every value fits the bits of its field. -/
def Fits : Agg.Cls → Agg.Inst DLeaf → Prop
  | .leaf _ b _ rest, .leaf _ v irest => (∀ z ∈ v.ints, 0 ≤ z ∧ z < 2 ^ b) ∧ Fits rest irest
  | .nested _ sub rest, .nested _ isub irest => Fits sub isub ∧ Fits rest irest
  | _, _ => True

/-- A class with an aggregate layout: its fields, and their dtypes. -/
structure ACls where
  cls : Agg.Cls
  dtypes : Agg.Inst (Bool × Kind)
  wf : cls.Wf
  small : cls.bitCount ≤ 2 ^ 32

/-- `x` is an instance of the class with `flatN` batch elements. -/
def ACls.Is (C : ACls) (flatN : Nat) (x : Agg.Inst DLeaf) : Prop :=
  Conforms flatN C.cls (imap DLeaf.ints x) ∧ imap DLeaf.dtype x = C.dtypes

theorem eq_of_ints {C : ACls} {flatN : Nat} {x y : Agg.Inst DLeaf} (hx : C.Is flatN x) (hy : C.Is flatN y)
    (h : imap DLeaf.ints x = imap DLeaf.ints y) : x = y :=
  imap_inj (f := DLeaf.dtype) (g := DLeaf.ints) (fun _ _ => ints_inj) x y (hx.2.trans hy.2.symm) h

theorem map_red_inj {b : Nat} : ∀ {l m : List Int}, (∀ z ∈ l, 0 ≤ z ∧ z < 2 ^ b) → (∀ z ∈ m, 0 ≤ z ∧ z < 2 ^ b) → l.map (red b) = m.map (red b) → l = m
  | [], [], _, _, _ => rfl
  | [], _ :: _, _, _, h => by simp at h
  | _ :: _, [], _, _, h => by simp at h
  | a :: l, c :: m, h1, h2, h => by
    simp only [List.map_cons, List.cons.injEq] at h
    obtain ⟨a1, a2⟩ := h1 a (by simp)
    obtain ⟨c1, c2⟩ := h2 c (by simp)
    have : a = c := by
      have := h.1
      unfold red at this
      rw [Int.emod_eq_of_lt a1 a2, Int.emod_eq_of_lt c1 c2] at this
      omega
    rw [this, map_red_inj (fun z hz => h1 z (by simp [hz])) (fun z hz => h2 z (by simp [hz])) h.2]

theorem reduced_inj {flatN : Nat} : ∀ (c : Agg.Cls) (x y : Agg.Inst DLeaf), Conforms flatN c (imap DLeaf.ints x) → Conforms flatN c (imap DLeaf.ints y) →
    Fits c x → Fits c y → reduced c (imap DLeaf.ints x) = reduced c (imap DLeaf.ints y) → imap DLeaf.ints x = imap DLeaf.ints y
  | .nil, .nil, .nil, _, _, _, _, _ => rfl
  | .leaf n b sh rest, .leaf n' v r, .leaf n'' v' r', h1, h2, f1, f2, h => by
    simp only [imap, reduced, Agg.Inst.leaf.injEq] at h ⊢
    exact ⟨h.1, map_red_inj f1.1 f2.1 h.2.1, reduced_inj rest r r' h1.2.2 h2.2.2 f1.2 f2.2 h.2.2⟩
  | .nested n sub rest, .nested n' s r, .nested n'' s' r', h1, h2, f1, f2, h => by
    simp only [imap, reduced, Agg.Inst.nested.injEq] at h ⊢
    exact ⟨h.1, reduced_inj sub s s' h1.2.1 h2.2.1 f1.1 f2.1 h.2.1, reduced_inj rest r r' h1.2.2 h2.2.2 f1.2 f2.2 h.2.2⟩
  | .nil, .leaf _ _ _, _, h, _, _, _, _ => h.elim
  | .nil, .nested _ _ _, _, h, _, _, _, _ => h.elim
  | .nil, .nil, .leaf _ _ _, _, h, _, _, _ => h.elim
  | .nil, .nil, .nested _ _ _, _, h, _, _, _ => h.elim
  | .leaf _ _ _ _, .nil, _, h, _, _, _, _ => h.elim
  | .leaf _ _ _ _, .nested _ _ _, _, h, _, _, _, _ => h.elim
  | .leaf _ _ _ _, .leaf _ _ _, .nil, _, h, _, _, _ => h.elim
  | .leaf _ _ _ _, .leaf _ _ _, .nested _ _ _, _, h, _, _, _ => h.elim
  | .nested _ _ _, .nil, _, h, _, _, _, _ => h.elim
  | .nested _ _ _, .leaf _ _ _, _, h, _, _, _, _ => h.elim
  | .nested _ _ _, .nested _ _ _, .nil, _, h, _, _, _ => h.elim
  | .nested _ _ _, .nested _ _ _, .leaf _ _ _, _, h, _, _, _ => h.elim

/-- Number of elements and element width of the leaves. -/
def leafLayout : Agg.Cls → Agg.Inst (Bool × Kind) → List (Kind × Nat)
  | .leaf _ _ sh rest, .leaf _ d irest => (d.2, size sh) :: leafLayout rest irest
  | .nested _ sub rest, .nested _ isub irest => leafLayout sub isub ++ leafLayout rest irest
  | _, _ => []

theorem rawLeaves_layout : ∀ (c : Agg.Cls) (x : Agg.Inst DLeaf), Conforms 1 c (imap DLeaf.ints x) →
    (rawLeaves x).map Leaf.layout = leafLayout c (imap DLeaf.dtype x)
  | .nil, .nil, _ => rfl
  | .leaf n b sh rest, .leaf n' v r, h => by
    have ih := rawLeaves_layout rest r h.2.2
    have hl := h.2.1
    rw [ints_length, Nat.one_mul] at hl
    unfold rawLeaves at ih ⊢
    simp only [vals, List.map_cons, imap, leafLayout, ih, DLeaf.dtype, List.cons.injEq, and_true]
    exact Prod.ext rfl hl
  | .nested n sub rest, .nested n' s r, h => by
    have ih := rawLeaves_layout rest r h.2.2
    have ih' := rawLeaves_layout sub s h.2.1
    unfold rawLeaves at ih ih' ⊢
    simp only [vals, List.map_append, imap, leafLayout, ih, ih']
  | .nil, .leaf _ _ _, h => h.elim
  | .nil, .nested _ _ _, h => h.elim
  | .leaf _ _ _ _, .nil, h => h.elim
  | .leaf _ _ _ _, .nested _ _ _, h => h.elim
  | .nested _ _ _, .nil, h => h.elim
  | .nested _ _ _, .leaf _ _ _, h => h.elim

theorem vals_inj {x y : Agg.Inst DLeaf} (hd : imap DLeaf.dtype x = imap DLeaf.dtype y) (h : vals x = vals y) : x = y := by
  have : ∀ (x y : Agg.Inst DLeaf) (r r' : List DLeaf), imap DLeaf.dtype x = imap DLeaf.dtype y → vals x ++ r = vals y ++ r' → x = y ∧ r = r' := by
    intro x
    induction x with
    | nil =>
      intro y r r' hd h
      cases y with
      | nil => exact ⟨rfl, h⟩
      | leaf _ _ _ => simp [imap] at hd
      | nested _ _ _ => simp [imap] at hd
    | leaf n v rest ih =>
      intro y r r' hd h
      cases y with
      | nil => simp [imap] at hd
      | leaf n' v' rest' =>
        simp only [imap, Agg.Inst.leaf.injEq] at hd
        simp only [vals, List.cons_append, List.cons.injEq] at h
        obtain ⟨e1, e2⟩ := ih rest' r r' hd.2.2 h.2
        exact ⟨by rw [hd.1, h.1, e1], e2⟩
      | nested _ _ _ => simp [imap] at hd
    | nested n sub rest ihs ih =>
      intro y r r' hd h
      cases y with
      | nil => simp [imap] at hd
      | leaf _ _ _ => simp [imap] at hd
      | nested n' sub' rest' =>
        simp only [imap, Agg.Inst.nested.injEq] at hd
        simp only [vals, List.append_assoc] at h
        obtain ⟨e1, e2⟩ := ihs sub' _ _ hd.2.1 h
        obtain ⟨e3, e4⟩ := ih rest' r r' hd.2.2 e2
        exact ⟨by rw [hd.1, e1, e3], e4⟩
  exact (this x y [] [] hd (by rw [h])).1

theorem leaf_vals_inj {x y : Agg.Inst DLeaf} (hd : imap DLeaf.dtype x = imap DLeaf.dtype y) (h : rawLeaves x = rawLeaves y) : x = y := by
  apply vals_inj hd
  have hs : ∀ (x y : Agg.Inst DLeaf), imap DLeaf.dtype x = imap DLeaf.dtype y → (vals x).map DLeaf.signed = (vals y).map DLeaf.signed := by
    have hv : ∀ x : Agg.Inst DLeaf, (vals x).map DLeaf.signed = (vals (imap DLeaf.dtype x)).map Prod.fst := by
      intro x
      induction x with
      | nil => rfl
      | leaf n v rest ih => simp only [vals, imap, List.map_cons, ih]; rfl
      | nested n s r ih1 ih2 => simp only [vals, imap, List.map_append, ih1, ih2]
    intro x y h
    rw [hv, hv, h]
  have hs := hs x y hd
  unfold rawLeaves at h
  generalize vals x = l at *
  generalize vals y = m at *
  induction l generalizing m with
  | nil => cases m with
    | nil => rfl
    | cons b m => simp at h
  | cons a l ih => cases m with
    | nil => simp at h
    | cons b m =>
      simp only [List.map_cons, List.cons.injEq] at h hs
      rw [ih m h.2 hs.2]
      congr 1
      cases a; cases b
      simp only at h hs
      rw [h.1, hs.1]

/-- One row: the words hashed in packed mode are the packed words. -/
theorem packedWords_row {c : Agg.Cls} (hw : c.Wf) {x : Agg.Inst (List Int)} (hc : Conforms 1 c x) :
    packedWords c [splitRow (layout (totalBits c)).1 (layout (totalBits c)).2.2 (rowWords c x 0)] = (rowWords c x 0).map (BitVec.ofNat 32) := by
  have hj := join_rowWords hw hc (r := 0) (by decide)
  obtain ⟨s1, s2, s3, s4⟩ := splitRow_sizes (rowWords_length c x 0) (rowWords_lt c x 0)
  have hl : (layout (totalBits c)).2.2 = 0 ∨ (layout (totalBits c)).2.2 = 1 ∨ (layout (totalBits c)).2.2 = 2 := by
    unfold layout
    simp only
    generalize (if totalBits c % 32 = 0 then 0 else ceilDiv (totalBits c % 32) 8) = r
    by_cases h : r = 1 ∨ r = 2
    · rw [if_pos h]
      rcases h with h | h <;> simp [h]
    · rw [if_neg h]; simp
  conv => rhs; rw [← hj]
  generalize rowWords c x 0 = ws at *
  generalize splitRow (layout (totalBits c)).1 (layout (totalBits c)).2.2 ws = p at *
  clear hj
  unfold packedWords joinRow
  generalize (layout (totalBits c)).2.2 = tb at *
  generalize (layout (totalBits c)).2.1 = st at *
  simp only [List.flatMap_cons, List.flatMap_nil, List.append_nil]
  rcases hl with rfl | rfl | rfl
  · simp
  · rcases p with ⟨pw, _ | ⟨a, _ | ⟨b, t⟩⟩⟩ <;> simp at s2
    simp only [show (1 : Nat) ≠ 0 by decide, if_false]
    have e : (BitVec.setWidth 32 (BitVec.ofNat 8 a) : W) = BitVec.ofNat 32 a := by
      have := s4 a (by simp)
      apply BitVec.eq_of_toNat_eq
      simp
      omega
    have m1 : a % 4294967296 = a := Nat.mod_eq_of_lt (by have := s4 a (by simp); omega)
    by_cases h : st = 0
    · simp [h, List.range_succ, e, m1]
    · simp [h, List.range_succ, e, m1]
  · rcases p with ⟨pw, _ | ⟨a, _ | ⟨b, _ | ⟨d, t⟩⟩⟩⟩ <;> simp at s2
    have e : ∀ a, a < 256 → (BitVec.setWidth 32 (BitVec.ofNat 8 a) : W) = BitVec.ofNat 32 a := by
      intro a this
      apply BitVec.eq_of_toNat_eq
      simp
      omega
    have e1 := e a (s4 a (by simp))
    have e2 := e b (s4 b (by simp))
    have e3 : (BitVec.ofNat 32 b <<< 8 : W) = BitVec.ofNat 32 (b <<< 8) := by
      apply BitVec.eq_of_toNat_eq
      simp [Nat.shiftLeft_eq]
    have m1 : a % 4294967296 = a := Nat.mod_eq_of_lt (by have := s4 a (by simp); omega)
    have m2 : b <<< 8 % 4294967296 = b <<< 8 := Nat.mod_eq_of_lt (by have := s4 b (by simp); rw [Nat.shiftLeft_eq]; omega)
    by_cases h : st = 0
    · simp [h, List.range_succ, e1, e2, e3, m1, m2, BitVec.ofNat_or]
    · simp [h, List.range_succ, e1, e2, e3, m1, m2, BitVec.ofNat_or]

/-- What a class with an aggregate layout gives for a single instance, by the way it hashes. -/
def itemView (C : ACls) (w : Way) (x : Agg.Inst DLeaf) (seed : W) : View :=
  match w with
  | .raw m => rawView m (rawLeaves x) seed
  | .packed => packedView C.cls [splitRow (layout (totalBits C.cls)).1 (layout (totalBits C.cls)).2.2 (rowWords C.cls (imap DLeaf.ints x) 0)] seed

/-- The settings are accepted when the class is decorated and, if hashing packs, when it hashes. -/
structure Setup.Ok (s : Setup) (c : Agg.Cls) : Prop where
  hash : HashOk s.py s.env0
  pack : UsesPacked s.py s.env0 s.dev → totalValues c ≠ 0 → PackOk s.py s.env s.dev

theorem viewAgg_eq {s : Setup} {C : ACls} (hs : s.Ok C.cls) {k : Machine} (hk : k.Ok) :
    ∃ w, hashWay s.py s.env0 s.dev true = .ok w ∧ (w = .packed ↔ UsesPacked s.py s.env0 s.dev) ∧
      ∀ x, C.Is 1 x → ∀ seed, s.viewAgg k C.cls 1 x seed = .ok (some (itemView C w x seed)) := by
  obtain ⟨w, e, hp⟩ := (hash_settings_accepted s.dev true).1 hs.hash
  refine ⟨w, e, by simpa using hp, ?_⟩
  intro x hx seed
  unfold Setup.viewAgg
  rw [e]
  cases w with
  | raw m => rfl
  | packed =>
    have he : packedCfg s.py s.env s.dev k C.cls 1 (imap DLeaf.ints x) = .ok (packed packXla C.cls 1 (imap DLeaf.ints x)) := by
      by_cases h0 : totalValues C.cls = 0
      · unfold packedCfg; rw [if_pos h0]
      · exact packed_settings_agree (hs.pack (hp.1 rfl).2 h0) hk C.wf hx.1
    simp only [he]
    rw [packed_eq xla_isPackKernel C.wf hx.1]
    rfl

theorem rowWords_inj {C : ACls} {x y : Agg.Inst DLeaf} (hx : C.Is 1 x) (hy : C.Is 1 y) (fx : Fits C.cls x) (fy : Fits C.cls y)
    (h : rowWords C.cls (imap DLeaf.ints x) 0 = rowWords C.cls (imap DLeaf.ints y) 0) : x = y := by
  apply eq_of_ints hx hy
  apply reduced_inj C.cls x y hx.1 hy.1 fx fy
  apply (packed_eq_iff xla_isPackKernel C.wf C.small hx.1 hy.1).1
  rw [packed_eq xla_isPackKernel C.wf hx.1, packed_eq xla_isPackKernel C.wf hy.1]
  congr 1
  apply List.map_congr_left
  intro r hr
  have : r = 0 := by have := List.mem_range.1 hr; omega
  rw [this, h]

theorem map_ofNat_inj {n : Nat} : ∀ {l m : List Nat}, (∀ a ∈ l, a < 2 ^ n) → (∀ a ∈ m, a < 2 ^ n) → l.map (BitVec.ofNat n) = m.map (BitVec.ofNat n) → l = m
  | [], [], _, _, _ => rfl
  | [], _ :: _, _, _, h => by simp at h
  | _ :: _, [], _, _, h => by simp at h
  | a :: l, b :: m, h1, h2, h => by
    simp only [List.map_cons, List.cons.injEq] at h
    have e := congrArg BitVec.toNat h.1
    rw [BitVec.toNat_ofNat, BitVec.toNat_ofNat, Nat.mod_eq_of_lt (h1 a (by simp)), Nat.mod_eq_of_lt (h2 b (by simp))] at e
    rw [e, map_ofNat_inj (fun z hz => h1 z (by simp [hz])) (fun z hz => h2 z (by simp [hz])) h.2]

theorem itemView_words_inj {C : ACls} {w : Way} {x y : Agg.Inst DLeaf} (hx : C.Is 1 x) (hy : C.Is 1 y) (fx : Fits C.cls x) (fy : Fits C.cls y)
    {seed seed' : W} (h : (itemView C w x seed).uint32ed = (itemView C w y seed').uint32ed) : x = y := by
  cases w with
  | raw m =>
    refine leaf_vals_inj (hx.2.trans hy.2.symm) (uint32ed_injective _ _ ?_ h)
    rw [rawLeaves_layout C.cls x hx.1, rawLeaves_layout C.cls y hy.1, hx.2, hy.2]
  | packed =>
    apply rowWords_inj hx hy fx fy
    have h' : packedWords C.cls [_] = packedWords C.cls [_] := h
    rw [packedWords_row C.wf hx.1, packedWords_row C.wf hy.1] at h'
    exact map_ofNat_inj (rowWords_lt _ _ _) (rowWords_lt _ _ _) h'

theorem packedBytes_eq (c : Agg.Cls) (p : PackedRow) (h : p.tail.length = (layout (totalBits c)).2.2) :
    packedBytes c [p] = leafBytes (.w32 (p.words.map (BitVec.ofNat 32))) ++ p.tail.map (BitVec.ofNat 8) := by
  unfold packedBytes
  simp only [List.flatMap_cons, List.flatMap_nil, List.append_nil]
  by_cases h0 : (layout (totalBits c)).2.2 = 0
  · rw [if_pos h0, List.length_eq_zero_iff.1 (h.trans h0)]
    simp
  · rw [if_neg h0]
    by_cases h1 : (leafBytes (.w32 (p.words.map (BitVec.ofNat 32)))).length = 0
    · rw [if_pos h1, List.length_eq_zero_iff.1 h1]; rfl
    · rw [if_neg h1]

theorem itemView_bytes_inj {C : ACls} {w : Way} {x y : Agg.Inst DLeaf} (hx : C.Is 1 x) (hy : C.Is 1 y) (fx : Fits C.cls x) (fy : Fits C.cls y)
    {seed seed' : W} (h : (itemView C w x seed).bytes = (itemView C w y seed').bytes) : x = y := by
  cases w with
  | raw m =>
    refine leaf_vals_inj (hx.2.trans hy.2.symm) (bytes_injective _ _ ?_ h)
    rw [rawLeaves_layout C.cls x hx.1, rawLeaves_layout C.cls y hy.1, hx.2, hy.2]
  | packed =>
    apply rowWords_inj hx hy fx fy
    obtain ⟨a1, a2, a3, a4⟩ := splitRow_sizes (rowWords_length C.cls (imap DLeaf.ints x) 0) (rowWords_lt C.cls (imap DLeaf.ints x) 0)
    obtain ⟨b1, b2, b3, b4⟩ := splitRow_sizes (rowWords_length C.cls (imap DLeaf.ints y) 0) (rowWords_lt C.cls (imap DLeaf.ints y) 0)
    have jx := join_rowWords C.wf hx.1 (r := 0) (by decide)
    have jy := join_rowWords C.wf hy.1 (r := 0) (by decide)
    have h' : packedBytes C.cls [_] = packedBytes C.cls [_] := h
    rw [packedBytes_eq _ _ a2, packedBytes_eq _ _ b2] at h'
    rw [← jx, ← jy]
    generalize splitRow (layout (totalBits C.cls)).1 (layout (totalBits C.cls)).2.2 (rowWords C.cls (imap DLeaf.ints x) 0) = p at *
    generalize splitRow (layout (totalBits C.cls)).1 (layout (totalBits C.cls)).2.2 (rowWords C.cls (imap DLeaf.ints y) 0) = q at *
    have hlen : Leaf.layout (.w32 (p.words.map (BitVec.ofNat 32))) = Leaf.layout (.w32 (q.words.map (BitVec.ofNat 32))) := by
      simp [Leaf.layout, a1, b1]
    obtain ⟨e1, e2⟩ := List.append_inj h' (leafBytes_length _ _ hlen)
    have e1' := bytes_injective [.w32 (p.words.map (BitVec.ofNat 32))] [.w32 (q.words.map (BitVec.ofNat 32))] (by simp only [List.map_cons, List.map_nil, hlen])
      (by simp only [bytes, List.flatMap_cons, List.flatMap_nil, List.append_nil, e1])
    simp only [List.cons.injEq, Leaf.w32.injEq, and_true] at e1'
    have w1 := map_ofNat_inj a3 b3 e1'
    have w2 := map_ofNat_inj (n := 8) a4 b4 e2
    rw [show p = q by cases p; cases q; simp only at w1 w2; rw [w1, w2]]

/-- **C85 (4).**  Under any accepted settings, on any device, single instances of a class with an aggregate layout whose values fit their bits have the same
`uint32ed` (the same `bytes`) iff they are equal. -/
theorem words_tell_instances_apart {s : Setup} {C : ACls} (hs : s.Ok C.cls) {k k' : Machine} (hk : k.Ok) (hk' : k'.Ok) {x y : Agg.Inst DLeaf} (hx : C.Is 1 x)
    (hy : C.Is 1 y) (fx : Fits C.cls x) (fy : Fits C.cls y) (seed seed' : W) :
    ∃ v v', s.viewAgg k C.cls 1 x seed = .ok (some v) ∧ s.viewAgg k' C.cls 1 y seed' = .ok (some v') ∧
      (v.uint32ed = v'.uint32ed ↔ x = y) ∧ (v.bytes = v'.bytes ↔ x = y) := by
  obtain ⟨w, e, _, hw⟩ := viewAgg_eq hs hk
  obtain ⟨w', e', _, hw'⟩ := viewAgg_eq hs hk'
  rw [e] at e'
  cases e'
  refine ⟨_, _, hw x hx seed, hw' y hy seed', ⟨itemView_words_inj hx hy fx fy, ?_⟩, ⟨itemView_bytes_inj hx hy fx fy, ?_⟩⟩
  · rintro rfl
    cases w <;> rfl
  · rintro rfl
    cases w <;> rfl

/-- **C85 (5).**  Nothing but the choice between raw and packed hashing shows (for an instance with at least one word of data): streaming, threshold, kernel, tile
and the order of the programs do not; and all hash functions agree with hashing `uint32ed`. -/
theorem agg_settings_agree_partial {s s' : Setup} {C : ACls} (hs : s.Ok C.cls) (hs' : s'.Ok C.cls)
    (same : UsesPacked s.py s.env0 s.dev ↔ UsesPacked s'.py s'.env0 s'.dev) {k k' : Machine} (hk : k.Ok) (hk' : k'.Ok) {x : Agg.Inst DLeaf} (hx : C.Is 1 x)
    (hne : uint32ed (rawLeaves x) ≠ []) (seed : W) :
    ∃ v, s.viewAgg k C.cls 1 x seed = .ok (some v) ∧ s'.viewAgg k' C.cls 1 x seed = .ok (some v) ∧
      v.hash = hashFast v.uint32ed seed ∧ v.hashPair = hashFastPair v.uint32ed seed ∧ v.hashWith = (v.hash, v.uint32ed) ∧
      v.hashPairWith = (v.hashPair, v.uint32ed) := by
  obtain ⟨w, e, hp, hw⟩ := viewAgg_eq hs hk
  obtain ⟨w', e', hp', hw'⟩ := viewAgg_eq hs' hk'
  refine ⟨_, hw x hx seed, ?_, ?_⟩
  · rw [hw' x hx seed]
    cases w with
    | packed =>
      rw [hp'.2 (same.1 (hp.1 rfl))]
    | raw m =>
      cases w' with
      | packed => exact absurd (hp.2 (same.2 (hp'.1 rfl))) (by simp)
      | raw m' =>
        have a := hash_entry_points_agree_partial m (rawLeaves x) seed (Or.inr hne)
        have b := hash_entry_points_agree_partial m' (rawLeaves x) seed (Or.inr hne)
        simp only [itemView, rawView]
        rw [a.1, b.1, a.2.1, b.2.1]
  · cases w with
    | packed => exact ⟨rfl, rfl, rfl, rfl⟩
    | raw m => exact hash_entry_points_agree_partial m (rawLeaves x) seed (Or.inr hne)

/-! ### Hash tables -/

/-- Items of the class whose values fit. -/
def Item (C : ACls) := { x : Agg.Inst DLeaf // C.Is 1 x ∧ Fits C.cls x }

instance (C : ACls) : DecidableEq (Item C) := inferInstanceAs (DecidableEq (Subtype _))

/-- Number of words of an item. -/
def wordCount (C : ACls) : Way → Nat
  | .raw _ => ((leafLayout C.cls C.dtypes).map layoutWords).sum
  | .packed => (layout (totalBits C.cls)).1

/-- The hasher of the class for a seed (hash_utils.py:539-594). -/
def itemHasher (C : ACls) (w : Way) (seed : W) : HashTable.Hasher (Item C) where
  wc := wordCount C w
  words := fun x => (itemView C w x.1 seed).uint32ed.map BitVec.toNat
  h1 := fun x => (itemView C w x.1 seed).hashPair.1.toNat
  h2 := fun x => (itemView C w x.1 seed).hashPair.2.toNat
  words_length := fun x => by
    rw [List.length_map]
    cases w with
    | raw m =>
      show (uint32ed (rawLeaves x.1)).length = _
      rw [uint32ed_length, rawLeaves_layout C.cls x.1 x.2.1.1, x.2.1.2]
      rfl
    | packed =>
      show (packedWords C.cls [_]).length = _
      rw [packedWords_row C.wf x.2.1.1, List.length_map, rowWords_length]
      rfl
  words_inj := fun x y h => by
    apply Subtype.ext
    apply itemView_words_inj x.2.1 y.2.1 x.2.2 y.2.2 (seed := seed) (seed' := seed)
    exact (List.map_inj_right fun a b hab => BitVec.eq_of_toNat_eq hab).1 h
  mix := fun a b => (mixFingerprint (BitVec.ofNat 32 a) (BitVec.ofNat 32 b) 0).toNat

/-- **C85 (6).**  A hash table of items of the class answers the same calls in the same way under all accepted settings of hashing, packing and of the table, on
all devices (the table being large enough for its items, and under the conditions of C83). -/
theorem table_settings_agree {K : Type v} [KeyTop K] {s s' : Setup} {C : ACls} (hs : s.Ok C.cls) (hs' : s'.Ok C.cls) {k k' : Machine} (hk : k.Ok) (hk' : k'.Ok)
    (seed seed' : W) :
    ∃ H H' : HashTable.Hasher (Item C),
      (∀ x : Item C, ∃ v, s.viewAgg k C.cls 1 x.1 seed = .ok (some v) ∧ H.words x = v.uint32ed.map BitVec.toNat ∧ H.h1 x = v.hashPair.1.toNat ∧
        H.h2 x = v.hashPair.2.toNat) ∧
      (∀ x : Item C, ∃ v, s'.viewAgg k' C.cls 1 x.1 seed' = .ok (some v) ∧ H'.words x = v.uint32ed.map BitVec.toNat ∧ H'.h1 x = v.hashPair.1.toNat ∧
        H'.h2 x = v.hashPair.2.toNat) ∧
      ∀ (c c' : HashTable.HSetup) (d d' : Item C) (capacity bs mult capacity' bs' mult' : Nat) (mp mp' : Option Nat),
        HashTable.ValidParams capacity bs mult mp → HashTable.ValidParams capacity' bs' mult' mp' →
        c.Faithful (HashTable.internalCap capacity bs mult) bs → c'.Faithful (HashTable.internalCap capacity' bs' mult') bs' →
        ∀ U : List (Item C), U.length ≤ HashTable.internalCap capacity bs mult * bs → U.length ≤ HashTable.internalCap capacity' bs' mult' * bs' →
        ∀ os os' : List (HashTable.Call (Item C) K × HashTable.Choice), os.map Prod.fst = os'.map Prod.fst → (∀ o ∈ os, ∀ x, o.1.offers x → x ∈ U) →
        (∀ o ∈ os, o.1.Fits c H (HashTable.internalCap capacity bs mult) bs (HashTable.build d capacity bs mult mp).maxProbes o.2) →
        (∀ o ∈ os', o.1.Fits c' H' (HashTable.internalCap capacity' bs' mult') bs' (HashTable.build d' capacity' bs' mult' mp').maxProbes o.2) →
        ∃ T T' rs, HashTable.calls c H (HashTable.build d capacity bs mult mp) os = .ok (T, rs) ∧
          HashTable.calls c' H' (HashTable.build d' capacity' bs' mult' mp') os' = .ok (T', rs) := by
  obtain ⟨w, _, _, hw⟩ := viewAgg_eq hs hk
  obtain ⟨w', _, _, hw'⟩ := viewAgg_eq hs' hk'
  exact ⟨itemHasher C w seed, itemHasher C w' seed', fun x => ⟨_, hw x.1 x.2.1 seed, rfl, rfl, rfl⟩, fun x => ⟨_, hw' x.1 x.2.1 seed', rfl, rfl, rfl⟩,
    fun c c' d d' _ _ _ _ _ _ _ _ hv hv' hc hc' U hU hU' os os' hsame hoff hf hf' =>
      HashTable.settings_agree c c' _ _ d d' hv hv' hc hc' U hU hU' os os' hsame hoff hf hf'⟩

end HashModel

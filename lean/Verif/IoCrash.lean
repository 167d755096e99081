import Verif.IoCrashModel
import Verif.IoProps

/-!
# C90: saves that stop half-way, and histories of saves
-/

namespace Io

open Agg

/-- What C49 asks of a call. -/
structure Call.Good (reg : String → String → Option Cls) (e : Call) : Prop where
  names : WfNames e.cls
  inst : IsInst e.cls e.inst
  free : ∀ n ∈ Io.names e.cls, n ∉ reserved
  reg : reg e.mod e.name = some e.cls
  suffix : ".npz".toList <:+ e.path
  fits : AllFit e.packed e.cls e.inst

theorem lookup_disk {fs : Disk} {path : Key} {f : File} (k : Key) : List.lookup k ((path, f) :: fs) = if k = path then some f else List.lookup k fs := by
  by_cases h : k = path
  · simp [h]
  · have : (k == path) = false := by simpa using h
    rw [if_neg h]
    simp only [List.lookup_cons, this]

theorem put_new {d : Dict} {k : Key} {v : Ent} (h : get d k = none) : put d k v = d ++ [(k, v)] := by
  unfold put
  rw [if_neg]
  intro ha
  rw [List.any_eq_true] at ha
  obtain ⟨e, he, hk⟩ := ha
  have := get_of_mem he
  rw [show e.1 = k by simpa using hk, h] at this
  cases this

theorem get_sublist {d d' : Dict} (h : d'.Sublist d) {k : Key} (hk : get d k = none) : get d' k = none := by
  cases hg : get d' k with
  | none => rfl
  | some v =>
    have hm : ∃ e ∈ d', e.1 = k := by
      unfold get at hg
      rw [List.lookup_eq_some_iff] at hg
      obtain ⟨l1, l2, h1, _⟩ := hg
      exact ⟨(k, v), by rw [h1]; simp, rfl⟩
    obtain ⟨e, he, hek⟩ := hm
    have := get_of_mem (h.subset he)
    rw [hek, hk] at this
    cases this

theorem npzPath_suffix {path : Key} (h : ".npz".toList <:+ path) : npzPath path = path := by
  unfold npzPath
  rw [if_pos (by rwa [List.isSuffixOf_iff_suffix])]

/-- The class name is the last member written. -/
theorem members_last {reg : String → String → Option Cls} {e : Call} (h : e.Good reg) :
    ∃ d, e.members = some (d ++ [(classKey, .str e.name)]) ∧ get d classKey = none := by
  obtain ⟨F, hF⟩ := flatten_of_fits [] h.inst h.fits
  have hfree : ∀ m : String, m ∈ reserved → NoDot m → get F m.toList = none := fun m hm hd => by
    cases hg : get F m.toList with
    | none => rfl
    | some v =>
      obtain ⟨n, hn, hz⟩ := (flatten_keys hF).2 _ (by rw [hg]; rfl)
      exact absurd (by rw [zone_reserved hd (noDot_names h.names n hn) hz]; exact hm) (h.free n hn)
  have h1 : get F "file".toList = none := hfree "file" (by decide) (by unfold NoDot; decide)
  have h2 : get F moduleKey = none := hfree "__xtructure_class_module__" (by decide) (by unfold NoDot; decide)
  have h3 : get F classKey = none := hfree "__xtructure_class_name__" (by decide) (by unfold NoDot; decide)
  have h3' : get (put F moduleKey (.str e.mod)) classKey = none := by rw [get_put, if_neg (by decide)]; exact h3
  have hfile : get (put (put F moduleKey (.str e.mod)) classKey (.str e.name)) "file".toList = none := by
    rw [get_put, if_neg (by decide), get_put, if_neg (by decide)]
    exact h1
  refine ⟨(put F moduleKey (.str e.mod)).filter fun e => decide (e.1 ≠ "allow_pickle".toList), ?_, ?_⟩
  · unfold Call.members
    rw [hF, Option.bind_some]
    unfold savez
    rw [hfile, put_new h3', List.filter_append]
    rfl
  · rw [get_filter (by decide)]
    exact h3'

/-- What a call leaves at its path. -/
theorem call_load {reg : String → String → Option Cls} {e : Call} (h : e.Good reg) (fs : Disk) (q : Key) :
    loadDisk (e.run fs) reg q =
      if q = e.path ∧ e.stop ≠ .before then (if e.stop = .done then some ⟨e.mod, e.name, e.inst⟩ else none) else loadDisk fs reg q := by
  obtain ⟨d, hd, hc⟩ := members_last h
  have hnp := npzPath_suffix h.suffix
  unfold Call.run
  rw [hd]
  dsimp only
  have hother : ∀ f : File, q ≠ e.path → loadDisk ((e.path, f) :: fs) reg q = loadDisk fs reg q := fun f hq => by
    unfold loadDisk
    rw [lookup_disk, if_neg hq]
  have hat : ∀ f : File, loadDisk ((e.path, f) :: fs) reg e.path = match f with
      | .torn => none
      | .zip d => load [(e.path, d)] reg e.path := fun f => by
    unfold loadDisk
    rw [lookup_disk, if_pos rfl, Option.bind_some]
    cases f <;> rfl
  cases hst : e.stop with
  | before =>
    dsimp only
    rw [if_neg (fun h => h.2 rfl)]
  | killed =>
    dsimp only
    rw [hnp]
    by_cases hq : q = e.path
    · rw [if_pos ⟨hq, by simp⟩, if_neg (by simp), hq, hat]
    · rw [if_neg (fun h => hq h.1), hother _ hq]
  | raised k =>
    dsimp only
    rw [hnp]
    by_cases hq : q = e.path
    · rw [if_pos ⟨hq, by simp⟩, if_neg (by simp), hq, hat]
      dsimp only
      have hg : get ((d ++ [(classKey, Ent.str e.name)]).dropLast.take k) classKey = none := by
        rw [List.dropLast_concat]
        exact get_sublist (List.take_sublist _ _) hc
      unfold load
      rw [lookup_head, if_pos rfl, Option.bind_some, npz_of_last (k := classKey) (by decide), hg]
      split
      · rename_i heq
        cases heq
      · rfl
    · rw [if_neg (fun h => hq h.1), hother _ hq]
  | done =>
    dsimp only
    rw [hnp]
    by_cases hq : q = e.path
    · rw [if_pos ⟨hq, by simp⟩, if_pos rfl, hq, hat]
      dsimp only
      obtain ⟨fs', h1, h2, _⟩ := save_load_partial (fs := []) h.names h.inst h.free h.reg h.suffix h.fits
      have h3 : save [] e.path e.packed e.mod e.name e.cls e.inst = some [(e.path, d ++ [(classKey, .str e.name)])] := by
        have hd' := hd
        unfold Call.members at hd'
        unfold save
        cases hF : flatten e.packed e.cls [] e.inst with
        | none => rw [hF] at hd'; cases hd'
        | some F =>
          rw [hF, Option.bind_some] at hd'
          rw [Option.bind_some, hd', Option.map_some, hnp]
      rw [h3] at h1
      cases h1
      exact h2
    · rw [if_neg (fun h => hq h.1), hother _ hq]

/-- **C90, one call.**  Wherever `save(path, x)` stops, loading `path` afterwards gives what it gave before, or `x`, or raises; it gives `x` if the call
finished; every other path gives what it gave before. -/
theorem interrupted_save {reg : String → String → Option Cls} {e : Call} (h : e.Good reg) (fs : Disk) :
    (e.stop = .done → loadDisk (e.run fs) reg e.path = some ⟨e.mod, e.name, e.inst⟩) ∧
    (loadDisk (e.run fs) reg e.path = loadDisk fs reg e.path ∨ loadDisk (e.run fs) reg e.path = some ⟨e.mod, e.name, e.inst⟩ ∨
      loadDisk (e.run fs) reg e.path = none) ∧
    ∀ q, q ≠ e.path → loadDisk (e.run fs) reg q = loadDisk fs reg q := by
  refine ⟨fun hs => ?_, ?_, fun q hq => ?_⟩
  · rw [call_load h, if_pos ⟨rfl, by rw [hs]; simp⟩, if_pos hs]
  · rw [call_load h]
    by_cases hb : e.stop = .before
    · rw [if_neg (fun h => h.2 hb)]
      exact Or.inl rfl
    · rw [if_pos ⟨rfl, hb⟩]
      by_cases hd : e.stop = .done
      · rw [if_pos hd]; exact Or.inr (Or.inl rfl)
      · rw [if_neg hd]; exact Or.inr (Or.inr rfl)
  · rw [call_load h, if_neg (fun h => hq h.1)]

/-- The last call of a history that opened the file `q`. -/
def lastAt (q : Key) : List Call → Option Call
  | [] => none
  | e :: es => (lastAt q es).or (if e.path = q ∧ e.stop ≠ .before then some e else none)

/-- **C90, histories.**  After any history of saves, each of them finished or stopped anywhere, loading a path gives the instance of the last save that
opened the file if it finished, raises if it did not, and is as before the history if there was none. -/
theorem save_history {reg : String → String → Option Cls} (es : List Call) (h : ∀ e ∈ es, e.Good reg) (fs : Disk) (q : Key) :
    loadDisk (es.foldl Call.run fs) reg q = match lastAt q es with
      | none => loadDisk fs reg q
      | some e => if e.stop = .done then some ⟨e.mod, e.name, e.inst⟩ else none := by
  induction es generalizing fs with
  | nil => rfl
  | cons e es ih =>
    rw [List.foldl_cons, ih fun e' he => h e' (List.mem_cons_of_mem _ he)]
    have hl : lastAt q (e :: es) = (lastAt q es).or (if e.path = q ∧ e.stop ≠ .before then some e else none) := rfl
    rw [hl]
    cases lastAt q es with
    | some e' => rfl
    | none =>
      rw [Option.none_or]
      dsimp only
      rw [call_load (h e List.mem_cons_self)]
      by_cases hq : e.path = q ∧ e.stop ≠ .before
      · rw [if_pos hq, if_pos ⟨hq.1.symm, hq.2⟩]
      · rw [if_neg hq, if_neg fun hq' => hq ⟨hq'.1.symm, hq'.2⟩]

/-- **C90, the old file is lost.**  The file is truncated before the new one is complete: whatever was saved before at this path cannot be loaded any
more after a save that is stopped while writing. -/
theorem interrupted_save_loses {reg : String → String → Option Cls} {e e' : Call} (h : e.Good reg) (h' : e'.Good reg) (hp : e.path = e'.path)
    (hd : e.stop = .done) (hs : e'.stop ≠ .before ∧ e'.stop ≠ .done) (fs : Disk) :
    loadDisk (e.run fs) reg e.path = some ⟨e.mod, e.name, e.inst⟩ ∧ loadDisk (e'.run (e.run fs)) reg e.path = none := by
  refine ⟨(interrupted_save h fs).1 hd, ?_⟩
  rw [call_load h', if_pos ⟨hp, hs.1⟩, if_neg hs.2]

/-- Concrete calls: the nested class of `IoProps` saved, then saved again with other contents and interrupted after two members. -/
def demoCall (stop : Stop) : Call := ⟨"d/x.npz".toList, true, "m", "C", demoCls, demoInst, stop⟩

theorem demo_good (stop : Stop) : (demoCall stop).Good (fun _ _ => some demoCls) where
  names := by
    show WfNames demoCls
    simp only [WfNames, demoCls, NoDot, names]; decide
  inst := by
    show IsInst demoCls demoInst
    simp only [IsInst, demoCls, demoInst]; decide
  free := by
    show ∀ n ∈ names demoCls, n ∉ reserved
    decide
  reg := rfl
  suffix := ⟨"d/x".toList, rfl⟩
  fits := by
    show AllFit true demoCls demoInst
    simp only [AllFit, demoCls, demoInst, Fits, bitpacked, InRange]
    refine ⟨⟨trivial, by decide, by simp⟩, ⟨⟨trivial, by simp, by simp⟩, trivial⟩, ⟨trivial, by decide, by simp⟩, trivial⟩

example : loadDisk ([demoCall .done, demoCall .before].foldl Call.run []) (fun _ _ => some demoCls) "d/x.npz".toList = some ⟨"m", "C", demoInst⟩ ∧
    loadDisk ([demoCall .done, demoCall (.raised 2)].foldl Call.run []) (fun _ _ => some demoCls) "d/x.npz".toList = none ∧
    loadDisk ([demoCall .done, demoCall .killed, demoCall .done].foldl Call.run []) (fun _ _ => some demoCls) "d/x.npz".toList =
      some ⟨"m", "C", demoInst⟩ := by
  decide +kernel

end Io

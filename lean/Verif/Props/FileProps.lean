import Verif.Model.Serialized
import Verif.Proofs.Codec
import Verif.Props.Run
/-!
# C35, C49: files
-/

namespace Verif

open Spec Search Search.Threaded Example

/-! ## C49: the formats -/

/-- **C49** Reading back a bincode file of paths gives the paths, also when something follows. -/
theorem C49_bincode (ps : List Path) (rest : Bytes) (h : Bincode.okPaths ps) :
    Bincode.decode Bincode.decPaths (Bincode.encPaths ps ++ rest) = some ps := by
  simp [Bincode.decode, Bincode.lawful_paths ps rest h]

/-- Every bincode file that is accepted starts with the encoding of the value it is read as: no two
values share an encoding, and no encoding is a proper prefix of another one. -/
theorem C49_canonical (bs : Bytes) (ps : List Path)
    (h : Bincode.decode Bincode.decPaths bs = some ps) :
    ∃ rest, bs = Bincode.encPaths ps ++ rest ∧ Bincode.okPaths ps := by
  simp only [Bincode.decode, Option.map_eq_some_iff] at h
  obtain ⟨⟨qs, rest⟩, h1, rfl⟩ := h
  exact ⟨rest, Bincode.canonical_paths _ _ _ h1⟩

/-- The same round trip for the JSON files. -/
theorem C49_json (ps : List Path) (h : Bincode.okPaths ps) :
    Json.decode Json.decPaths (Json.encPaths ps) = some ps := by
  have h1 := Json.lawful_paths ps [] h (by simp [Json.Stop])
  rw [List.append_nil] at h1
  simp only [Json.decode]
  rw [h1]
  rfl

/-- The round trips of the inputs, in both formats. -/
theorem C49_inputs (g : List (List Nat)) (o : OrderGraph) (hg : Bincode.okGraph g)
    (ho : Bincode.okOrder o) :
    graphDecoders.json (Json.encGraph g) = some g ∧ graphDecoders.bincode (Bincode.encGraph g) = some g ∧
    orderDecoders.json (Json.encOrder o) = some o ∧
    orderDecoders.bincode (Bincode.encOrder o) = some o := by
  have h1 := Json.lawful_graph g [] hg (by simp [Json.Stop])
  have h2 := Bincode.lawful_graph g [] hg
  have h3 := Json.lawful_order o [] ho (by simp [Json.Stop])
  have h4 := Bincode.lawful_order o [] ho
  rw [List.append_nil] at h1 h2 h3 h4
  refine ⟨?_, ?_, ?_, ?_⟩
  · simp only [graphDecoders, Json.decode]; rw [h1]; rfl
  · simp only [graphDecoders, Bincode.decode]; rw [h2]; rfl
  · simp only [orderDecoders, Json.decode]; rw [h3]; rfl
  · simp only [orderDecoders, Bincode.decode]; rw [h4]; rfl

/-- **C49** A JSON file that is accepted as an input is, apart from white space (space, line feed, tabulator, carriage
return), the encoding of the value it is read as: no trailing commas, leading zeros, signs, fractions or anything after the
value. -/
theorem C49_json_canonical (bs : Bytes) :
    (∀ g, graphDecoders.json bs = some g → bs.filter (fun b => b ∉ [32, 10, 9, 13]) = Json.encGraph g) ∧
    ∀ o, orderDecoders.json bs = some o → bs.filter (fun b => b ∉ [32, 10, 9, 13]) = Json.encOrder o := by
  have h : bs.filter (fun b => b ∉ [32, 10, 9, 13]) = Json.strip bs := by
    refine List.filter_congr fun b _ => ?_
    simp [Json.isWs, beq_eq_decide, Bool.and_assoc]
  rw [h]
  exact ⟨fun g hg => Json.decode_inv Json.canonical_graph hg, fun o ho => Json.decode_inv Json.canonical_order ho⟩

/-- `[ [1, 20] ]` is accepted. -/
example : graphDecoders.json [91, 32, 91, 49, 44, 32, 50, 48, 93, 10, 93, 10] = some [[1, 20]] := by decide +kernel

/-- `[[1,]]`, `[[01]]` and `[[1 2]]` are not. -/
example : graphDecoders.json [91, 91, 49, 44, 93, 93] = none ∧ graphDecoders.json [91, 91, 48, 49, 93, 93] = none ∧
    graphDecoders.json [91, 91, 49, 32, 50, 93, 93] = none := by decide +kernel

/-- `[{"time":1,"space":2,"steps":[[0,13]]}]` -/
example : Json.encPaths [⟨1, 2, [[0, 13]]⟩] =
    [91, 123, 34, 116, 105, 109, 101, 34, 58, 49, 44, 34, 115, 112, 97, 99, 101, 34, 58, 50, 44, 34, 115,
      116, 101, 112, 115, 34, 58, 91, 91, 48, 44, 49, 51, 93, 93, 125, 93] := by decide +kernel

example : Bincode.encPaths [⟨1, 258, []⟩] =
    [1, 0, 0, 0, 0, 0, 0, 0, 1, 0, 0, 0, 0, 0, 0, 0, 2, 1, 0, 0, 0, 0, 0, 0, 0, 0, 0, 0, 0, 0, 0, 0] := by
  decide +kernel

example : Bincode.okPaths [⟨1, 2, [[0, 13]]⟩] := by
  simp [Bincode.okPaths, Bincode.okVec, Bincode.okPath, Bincode.okGraph, Bincode.okUsize]

/-- White space is skipped, a leading zero, a fraction and a number above `u64::MAX` are refused. -/
example : graphDecoders.json [32, 91, 10, 91, 49, 32, 44, 32, 50, 93, 93, 10] = some [[1, 2]] ∧
    graphDecoders.json [91, 91, 48, 49, 93, 93] = none ∧
    graphDecoders.json [91, 91, 49, 46, 48, 93, 93] = none ∧
    graphDecoders.json (91 :: 91 :: Json.digits 21 (2 ^ 64) ++ [93, 93]) = none := by decide +kernel

/-! ## The results of `run` fit into the formats -/

theorem length_le_of_lt {l : List Nat} {m : Nat} (hp : l.Nodup) (h : ∀ x ∈ l, x < m) :
    l.length ≤ m := by
  have h1 : l ⊆ List.range m := fun x hx => List.mem_range.2 (h x hx)
  have := (List.subperm_of_subset hp h1).length_le
  simpa using this

theorem okGraph_of_valid {P : Problem} (hP : P.WF) {S : Schedule} (h : P.Valid S) :
    Bincode.okGraph S := by
  have hsize := hP.size
  have hbits : P.bits.length ≤ P.n := length_le_of_lt hP.bits_nodup hP.bits_lt
  have hpre := h.prefix hP.bits_nodup
  have hflat : S.flatten.length ≤ P.n := by rw [h.perm.length_eq]; exact hbits
  have hle : ∀ s ∈ S, s.length ≤ S.flatten.length := fun s hs =>
    (List.sublist_flatten_of_mem hs).length_le
  refine ⟨?_, fun s hs => ⟨?_, fun b hb => ?_⟩⟩
  · have := hpre.length_le
    omega
  · have := hle s hs
    omega
  · have hb' : b < P.n := hP.bits_lt b (h.perm.subset (List.mem_flatten.2 ⟨s, hs, hb⟩))
    show b < 2 ^ 64
    omega

theorem okPaths_of_run {F σ : Type} [FloatOps F] {P : Problem} {env : Env F σ} {args : Args F}
    {out : List Path} (hP : P.WF) (he : env.OK) (h : run env P.graph P.order args = .ok (some out)) :
    Bincode.okPaths out := by
  have hsize := hP.size
  have hbits : P.bits.length ≤ P.n := length_le_of_lt hP.bits_nodup hP.bits_lt
  have hall : ∀ p ∈ out, p.time ≤ P.n ∧ Bincode.okPath p := by
    intro p hp
    obtain ⟨hv, ht, hs⟩ := (run_sound hP he h).valid p hp
    have hpre := hv.prefix hP.bits_nodup
    have hlen : p.time ≤ P.n := by
      have := hpre.length_le
      have := hv.perm.length_eq
      omega
    refine ⟨hlen, ?_, ?_, okGraph_of_valid hP hv⟩
    · show p.time < 2 ^ 64
      omega
    · have := peak_le_n P p.steps
      show p.space < 2 ^ 64
      omega
  refine ⟨?_, fun p hp => (hall p hp).2⟩
  have hnd : (out.map (·.time)).Nodup := by
    rw [List.Nodup, List.pairwise_map]
    exact (C08_monotone hP he h).imp fun h => Nat.ne_of_lt h.1
  have := length_le_of_lt (m := P.n + 1) hnd (by
    intro x hx
    obtain ⟨p, hp, rfl⟩ := List.mem_map.1 hx
    have := (hall p hp).1
    omega)
  simp only [List.length_map] at this
  omega

/-! ## C35: run_serialized -/

/-- The file `f.1` can be opened, `f.2` names a known format, and the content is `x` in that format. -/
def Reads {α : Type} (dec : Decoders α) (w : World) (f : String × String) (x : α) : Prop :=
  ∃ bs, w.files f.1 = some bs ∧ w.noOpen f.1 = false ∧
    ((f.2 = "serde_json" ∧ dec.json bs = some x) ∨ (f.2 = "bincode" ∧ dec.bincode bs = some x))

/-- The same files and directories. -/
def SameDisk (w w' : World) : Prop := w'.files = w.files ∧ w'.dirs = w.dirs

theorem deserialize_cases {α : Type} (dec : Decoders α) (w : World) (f : String × String) :
    (∃ x, Reads dec w f x ∧ (∀ y, Reads dec w f y → y = x) ∧
      w.deserializeFromFile dec f.1 f.2 = ({ w with log := w.log ++ [.opened f.1] }, .ok x)) ∨
    ((∀ x, ¬ Reads dec w f x) ∧ ∃ l e, (∀ ev ∈ l, ev = .opened f.1) ∧
      w.deserializeFromFile dec f.1 f.2 = ({ w with log := w.log ++ l }, .error e)) := by
  have hopen : (w.openFile f.1 = (w, .error .io) ∧ ∀ x, ¬ Reads dec w f x) ∨
      ∃ bs, w.files f.1 = some bs ∧ w.noOpen f.1 = false ∧
        w.openFile f.1 = ({ w with log := w.log ++ [.opened f.1] }, .ok bs) := by
    unfold World.openFile
    cases hf : w.files f.1 with
    | none => exact .inl ⟨rfl, fun x ⟨bs, h, _⟩ => by rw [hf] at h; cases h⟩
    | some bs =>
      cases hn : w.noOpen f.1 with
      | true => exact .inl ⟨rfl, fun x ⟨bs, _, h, _⟩ => by rw [hn] at h; cases h⟩
      | false => exact .inr ⟨bs, rfl, rfl, rfl⟩
  unfold World.deserializeFromFile
  by_cases h1 : f.2 = "serde_json"
  · rw [if_pos h1]
    rcases hopen with ⟨ho, hne⟩ | ⟨bs, hb1, hb2, ho⟩
    · exact .inr ⟨hne, [], .io, by simp, by rw [ho]; simp⟩
    · cases hd : dec.json bs with
      | none =>
        refine .inr ⟨?_, [.opened f.1], .decode, by simp, by rw [ho]; simp [hd]⟩
        rintro x ⟨bs', h2, _, h3⟩
        rw [hb1] at h2
        cases h2
        rcases h3 with ⟨_, h3⟩ | ⟨h3, _⟩
        · rw [hd] at h3; cases h3
        · rw [h1] at h3; exact absurd h3 (by decide)
      | some x =>
        refine .inl ⟨x, ⟨bs, hb1, hb2, .inl ⟨h1, hd⟩⟩, ?_, by rw [ho]; simp [hd]⟩
        rintro y ⟨bs', h2, _, h3⟩
        rw [hb1] at h2
        cases h2
        rcases h3 with ⟨_, h3⟩ | ⟨h3, _⟩
        · rw [hd] at h3; exact (Option.some.inj h3).symm
        · rw [h1] at h3; exact absurd h3 (by decide)
  · rw [if_neg h1]
    by_cases h2 : f.2 = "bincode"
    · rw [if_pos h2]
      rcases hopen with ⟨ho, hne⟩ | ⟨bs, hb1, hb2, ho⟩
      · exact .inr ⟨hne, [], .io, by simp, by rw [ho]; simp⟩
      · cases hd : dec.bincode bs with
        | none =>
          refine .inr ⟨?_, [.opened f.1], .decode, by simp, by rw [ho]; simp [hd]⟩
          rintro x ⟨bs', h3, _, h4⟩
          rw [hb1] at h3
          cases h3
          rcases h4 with ⟨h4, _⟩ | ⟨_, h4⟩
          · exact h1 h4
          · rw [hd] at h4; cases h4
        | some x =>
          refine .inl ⟨x, ⟨bs, hb1, hb2, .inr ⟨h2, hd⟩⟩, ?_, by rw [ho]; simp [hd]⟩
          rintro y ⟨bs', h3, _, h4⟩
          rw [hb1] at h3
          cases h3
          rcases h4 with ⟨h4, _⟩ | ⟨_, h4⟩
          · exact absurd h4 h1
          · rw [hd] at h4; exact (Option.some.inj h4).symm
    · rw [if_neg h2]
      refine .inr ⟨?_, [], .unknownFormat f.2, by simp, by simp⟩
      rintro x ⟨_, _, _, h3⟩
      rcases h3 with ⟨h3, _⟩ | ⟨h3, _⟩
      · exact h1 h3
      · exact h2 h3

/-- The bytes of `x` in a format. -/
def Encodes {α : Type} (enc : Encoders α) (format : String) (x : α) (bs : Bytes) : Prop :=
  (format = "serde_json" ∧ bs = enc.json x) ∨ (format = "bincode" ∧ bs = enc.bincode x)

/-- How writing the result can end. -/
inductive Written (w : World) (path format : String) (x : List Path) :
    World × Except FileError Unit → Prop
  | ok (w' : World) (bs : Bytes) (h : Encodes pathsEncoders format x bs) (hs : bs.length ≤ w.space)
      (hw : w'.files = fun q => if q = path then some bs else w.files q) :
      Written w path format x (w', .ok ())
  | format (hf : format ≠ "serde_json" ∧ format ≠ "bincode") :
      Written w path format x (w, .error (.unknownFormat format))
  | create (w' : World) (hk : format = "serde_json" ∨ format = "bincode")
      (hw : w'.files = w.files) (hl : w'.log = w.log)
      (hf : w.noCreate path = true ∨ ∃ p, w.parent path = some p ∧ w.noDir p = true) :
      Written w path format x (w', .error .io)
  | full (w' : World) (bs : Bytes) (h : Encodes pathsEncoders format x bs)
      (hs : w.space < bs.length)
      (hw : w'.files = fun q => if q = path then some (bs.take w.space) else w.files q) :
      Written w path format x (w', .error .io)

theorem create_cases (w : World) (path : String) :
    (∃ w', w.create path = (w', .error .io) ∧ w'.files = w.files ∧ w'.log = w.log ∧
      (w.noCreate path = true ∨ ∃ p, w.parent path = some p ∧ w.noDir p = true)) ∨
    ∃ w', w.create path = (w', .ok ()) ∧ w'.space = w.space ∧
      w'.files = fun q => if q = path then some [] else w.files q := by
  unfold World.create
  cases hp : w.parent path with
  | none =>
    cases hc : w.noCreate path with
    | true => exact .inl ⟨w, by simp [hc], rfl, rfl, .inl rfl⟩
    | false => exact .inr (by simp [hc])
  | some p =>
    cases hd : w.noDir p with
    | true => exact .inl ⟨w, by simp [hd], rfl, rfl, .inr ⟨p, rfl, hd⟩⟩
    | false =>
      cases hc : w.noCreate path with
      | true =>
        exact .inl ⟨{ w with dirs := fun q => w.dirs q || q == p }, by simp [hd, hc], rfl, rfl, .inl rfl⟩
      | false => exact .inr (by simp [hd, hc])

theorem write_cases (w w' : World) (path format : String) (x : List Path) (bs : Bytes)
    (h : Encodes pathsEncoders format x bs) (hs : w'.space = w.space)
    (hf : w'.files = fun q => if q = path then some [] else w.files q) :
    Written w path format x (w'.write path bs) := by
  have hall : ∀ c : Bytes, (fun q => if q = path then some c else w'.files q) =
      fun q => if q = path then some c else w.files q := by
    intro c
    funext q
    by_cases hq : q = path <;> simp [hq, hf]
  simp only [World.write]
  split
  · exact .ok _ bs h (by omega) (hall bs)
  · rename_i hn
    exact .full _ bs h (by omega) (by rw [← hs]; exact hall _)

theorem serialize_cases (w : World) (path format : String) (x : List Path) :
    Written w path format x (w.serializeToFile pathsEncoders path x format) := by
  unfold World.serializeToFile
  by_cases h1 : format = "serde_json"
  · rw [if_pos h1]
    rcases create_cases w path with ⟨w', hc, h2, h3, h4⟩ | ⟨w', hc, h2, h3⟩
    · rw [hc]
      exact .create w' (.inl h1) h2 h3 h4
    · rw [hc]
      exact write_cases w w' path format x _ (.inl ⟨h1, rfl⟩) h2 h3
  · rw [if_neg h1]
    by_cases h2 : format = "bincode"
    · rw [if_pos h2]
      rcases create_cases w path with ⟨w', hc, h3, h4, h5⟩ | ⟨w', hc, h3, h4⟩
      · rw [hc]
        exact .create w' (.inr h2) h3 h4 h5
      · rw [hc]
        exact write_cases w w' path format x _ (.inr ⟨h2, rfl⟩) h3 h4
    · rw [if_neg h2]
      exact .format ⟨h1, h2⟩

section

variable {F σ : Type} [FloatArith F] {env : Env F σ} {w w' : World} {a : FileArgs F}

/-- **C35** If one of the inputs cannot be opened or decoded, or its format is unknown, the call
returns an error, the disk is as before and no search was started. -/
theorem C35_input_error
    (h : (∀ g, ¬ Reads graphDecoders w a.spacialGraph g) ∨ ∀ o, ¬ Reads orderDecoders w a.dependencyGraph o) :
    ∃ w' e l, runSerialized env w a = .ok (some (w', .error e)) ∧ SameDisk w w' ∧
      w'.log = w.log ++ l ∧ ∀ ev ∈ l, ∃ f, ev = .opened f := by
  unfold runSerialized
  rcases deserialize_cases graphDecoders w a.spacialGraph with ⟨g, hg, _, he⟩ | ⟨_, l, e, hl, he⟩
  · rw [he]
    simp only
    rcases deserialize_cases orderDecoders { w with log := w.log ++ [.opened a.spacialGraph.1] }
        a.dependencyGraph with ⟨o, ho, _, he'⟩ | ⟨_, l, e, hl, he'⟩
    · rcases h with h | h
      · exact absurd hg (h g)
      · exact absurd ho (h o)
    · rw [he']
      refine ⟨_, e, [.opened a.spacialGraph.1] ++ l, rfl, ⟨rfl, rfl⟩, by simp, ?_⟩
      intro ev hev
      rcases List.mem_append.1 hev with h | h
      · exact ⟨_, List.mem_singleton.1 h⟩
      · exact ⟨_, hl ev h⟩
  · rw [he]
    exact ⟨_, e, l, rfl, ⟨rfl, rfl⟩, rfl, fun ev hev => ⟨_, hl ev hev⟩⟩

/-- What `run` is given: the arguments of `run_serialized` as they are, and no seed. -/
def passed {F : Type} [FloatArith F] (a : FileArgs F) : Args F :=
  ⟨a.doSearch, a.timeout, a.nthreads, a.taskBound, a.probabilistic.map fun f => (f.getAcceptFunc, none)⟩

theorem toArgs_eq {F : Type} [FloatArith F] (a : FileArgs F) : a.toArgs = passed a := rfl

/-- What the call does once both inputs are read: exactly `run` on the decoded inputs, and then the
result is written. -/
theorem C35_reads {g : List (List Nat)} {o : OrderGraph} (hg : Reads graphDecoders w a.spacialGraph g)
    (ho : Reads orderDecoders w a.dependencyGraph o) :
    (∀ e, run env g o (passed a) = .error e → runSerialized env w a = .error e) ∧
    (run env g o (passed a) = .ok none → runSerialized env w a = .ok none) ∧
    ∀ out, run env g o (passed a) = .ok (some out) → ∃ w1 r,
      w1.files = w.files ∧ w1.dirs = w.dirs ∧
      w1.log = w.log ++ [.opened a.spacialGraph.1, .opened a.dependencyGraph.1, .searched] ∧
      w1.space = w.space ∧ w1.noCreate = w.noCreate ∧ w1.noDir = w.noDir ∧ w1.parent = w.parent ∧
      runSerialized env w a = .ok (some r) ∧ Written w1 a.paths.1 a.paths.2 out r := by
  unfold runSerialized
  rw [toArgs_eq]
  rcases deserialize_cases graphDecoders w a.spacialGraph with ⟨g', _, hu, he⟩ | ⟨hn, _⟩
  · rw [he]
    simp only
    obtain rfl := hu g hg
    have ho' : Reads orderDecoders { w with log := w.log ++ [.opened a.spacialGraph.1] }
      a.dependencyGraph o := ho
    rcases deserialize_cases orderDecoders { w with log := w.log ++ [.opened a.spacialGraph.1] }
        a.dependencyGraph with ⟨o', _, hu', he'⟩ | ⟨hn, _⟩
    · rw [he']
      simp only
      obtain rfl := hu' o ho'
      refine ⟨?_, ?_, ?_⟩
      · intro e hr; rw [hr]; rfl
      · intro hr; rw [hr]; rfl
      · intro out hr
        rw [hr]
        refine ⟨_, _, ?_, ?_, ?_, ?_, ?_, ?_, ?_, rfl, serialize_cases _ _ _ _⟩
        all_goals first | rfl | (simp only [List.append_assoc]; rfl)
    · exact absurd ho' (hn o)
  · exact absurd hg (hn g)

/-- **C35** If the call returns `Ok`, both inputs were read, the output file is the encoding of what
`run` returns on them, and no other file has changed. -/
theorem C35_ok (h : runSerialized env w a = .ok (some (w', .ok ()))) :
    ∃ g o out bs, Reads graphDecoders w a.spacialGraph g ∧ Reads orderDecoders w a.dependencyGraph o ∧
      run env g o (passed a) = .ok (some out) ∧ Encodes pathsEncoders a.paths.2 out bs ∧
      w'.files a.paths.1 = some bs ∧ ∀ q, q ≠ a.paths.1 → w'.files q = w.files q := by
  by_cases hin : (∀ g, ¬ Reads graphDecoders w a.spacialGraph g) ∨
      ∀ o, ¬ Reads orderDecoders w a.dependencyGraph o
  · obtain ⟨_, _, _, h1, _⟩ := C35_input_error (env := env) hin
    rw [h1] at h
    cases h
  · simp only [not_or, not_forall, Classical.not_not] at hin
    obtain ⟨⟨g, hg⟩, ⟨o, ho⟩⟩ := hin
    obtain ⟨h1, h2, h3⟩ := C35_reads (env := env) hg ho
    cases hr : run env g o (passed a) with
    | error e => rw [h1 e hr] at h; cases h
    | ok r =>
      cases r with
      | none => rw [h2 hr] at h; cases h
      | some out =>
        obtain ⟨w1, r, hw1, _, _, _, _, _, _, hrun, hwr⟩ := h3 out hr
        rw [hrun] at h
        simp only [Except.ok.injEq, Option.some.injEq] at h
        subst h
        cases hwr with
        | ok _ bs henc _ hw =>
          refine ⟨g, o, out, bs, hg, ho, hr, henc, by rw [hw]; simp, fun q hq => ?_⟩
          rw [hw]
          simp [hq, hw1]

/-- **C35** ... and the output file reads back as that result, if the input is well formed. -/
theorem C35_decodes {P : Problem} (hP : P.WF) (he : env.OK)
    (hg : Reads graphDecoders w a.spacialGraph P.graph)
    (ho : Reads orderDecoders w a.dependencyGraph P.order)
    (h : runSerialized env w a = .ok (some (w', .ok ()))) :
    ∃ out bs, run env P.graph P.order (passed a) = .ok (some out) ∧ w'.files a.paths.1 = some bs ∧
      (a.paths.2 = "serde_json" ∧ pathsDecoders.json bs = some out ∨
        a.paths.2 = "bincode" ∧ pathsDecoders.bincode bs = some out) := by
  obtain ⟨g, o, out, bs, hg', ho', hr, henc, hf, _⟩ := C35_ok h
  have hgg : g = P.graph := by
    rcases deserialize_cases graphDecoders w a.spacialGraph with ⟨_, _, hu, _⟩ | ⟨hn, _⟩
    · rw [hu g hg', hu _ hg]
    · exact absurd hg (hn _)
  have hoo : o = P.order := by
    rcases deserialize_cases orderDecoders w a.dependencyGraph with ⟨_, _, hu, _⟩ | ⟨hn, _⟩
    · rw [hu o ho', hu _ ho]
    · exact absurd ho (hn _)
  subst hgg hoo
  have hok := okPaths_of_run hP he hr
  refine ⟨out, bs, hr, hf, ?_⟩
  rcases henc with ⟨hj, rfl⟩ | ⟨hb, rfl⟩
  · exact .inl ⟨hj, C49_json out hok⟩
  · refine .inr ⟨hb, ?_⟩
    have := C49_bincode out [] hok
    rw [List.append_nil] at this
    simp only [pathsDecoders, pathsEncoders]
    exact this

/-- **C35** With readable inputs, a known output format and no fault of the file system the call
succeeds whenever the search completes. -/
theorem C35_succeeds {g : List (List Nat)} {o : OrderGraph} {out : List Path}
    (hg : Reads graphDecoders w a.spacialGraph g) (ho : Reads orderDecoders w a.dependencyGraph o)
    (hr : run env g o (passed a) = .ok (some out))
    (hf : a.paths.2 = "serde_json" ∨ a.paths.2 = "bincode") (hc : w.noCreate a.paths.1 = false)
    (hd : ∀ p, w.parent a.paths.1 = some p → w.noDir p = false)
    (hs : ∀ bs, Encodes pathsEncoders a.paths.2 out bs → bs.length ≤ w.space) :
    ∃ w', runSerialized env w a = .ok (some (w', .ok ())) := by
  obtain ⟨w1, r, h1, _, _, h2, h3, h4, h5, hrun, hwr⟩ := (C35_reads (env := env) hg ho).2.2 out hr
  cases hwr with
  | ok w' bs _ _ _ => exact ⟨w', hrun⟩
  | format hff =>
    rcases hf with hf | hf
    · exact absurd hf hff.1
    · exact absurd hf hff.2
  | create _ _ _ _ hff =>
    rcases hff with hff | ⟨p, hp, hff⟩
    · rw [h3, hc] at hff; cases hff
    · rw [h4, hd p (h5 ▸ hp)] at hff; cases hff
  | full _ bs henc hlt _ =>
    have := hs bs henc
    omega

/-- **C35** An unknown output format is only noticed when the whole search is done: the call returns an
error, nothing is written, and the result is lost. -/
theorem C35_format_late {g : List (List Nat)} {o : OrderGraph} {out : List Path}
    (hg : Reads graphDecoders w a.spacialGraph g) (ho : Reads orderDecoders w a.dependencyGraph o)
    (hr : run env g o (passed a) = .ok (some out))
    (hf : a.paths.2 ≠ "serde_json" ∧ a.paths.2 ≠ "bincode") :
    ∃ w', runSerialized env w a = .ok (some (w', .error (.unknownFormat a.paths.2))) ∧
      SameDisk w w' ∧ .searched ∈ w'.log := by
  obtain ⟨w1, r, h1, h1', hl, _, _, _, _, hrun, hwr⟩ := (C35_reads (env := env) hg ho).2.2 out hr
  have henc : ∀ bs, ¬ Encodes pathsEncoders a.paths.2 out bs := by
    rintro bs (⟨h, _⟩ | ⟨h, _⟩)
    · exact hf.1 h
    · exact hf.2 h
  have heq : r = (w1, .error (.unknownFormat a.paths.2)) := by
    cases hwr with
    | ok _ bs h _ _ => exact absurd h (henc bs)
    | format => rfl
    | create _ hk _ _ _ =>
      rcases hk with hk | hk
      · exact absurd hk hf.1
      · exact absurd hk hf.2
    | full _ bs h _ _ => exact absurd h (henc bs)
  subst heq
  exact ⟨w1, hrun, ⟨h1, h1'⟩, by rw [hl]; simp⟩

/-- **C35** If the device runs full, the file is left truncated: the old content is gone. -/
theorem C35_full {g : List (List Nat)} {o : OrderGraph} {out : List Path} {bs : Bytes}
    (hg : Reads graphDecoders w a.spacialGraph g) (ho : Reads orderDecoders w a.dependencyGraph o)
    (hr : run env g o (passed a) = .ok (some out)) (hb : Encodes pathsEncoders a.paths.2 out bs)
    (hc : w.noCreate a.paths.1 = false) (hd : ∀ p, w.parent a.paths.1 = some p → w.noDir p = false)
    (hs : w.space < bs.length) :
    ∃ w', runSerialized env w a = .ok (some (w', .error .io)) ∧
      w'.files a.paths.1 = some (bs.take w.space) ∧ ∀ q, q ≠ a.paths.1 → w'.files q = w.files q := by
  obtain ⟨w1, r, h1, _, _, h2, h3, h4, h5, hrun, hwr⟩ := (C35_reads (env := env) hg ho).2.2 out hr
  have huniq : ∀ cs, Encodes pathsEncoders a.paths.2 out cs → cs = bs := by
    rintro cs (⟨h, rfl⟩ | ⟨h, rfl⟩) <;> rcases hb with ⟨h', rfl⟩ | ⟨h', rfl⟩
    · rfl
    · rw [h] at h'; exact absurd h' (by decide)
    · rw [h] at h'; exact absurd h' (by decide)
    · rfl
  cases hwr with
  | ok _ cs henc hle _ =>
    obtain rfl := huniq cs henc
    omega
  | format hff =>
    rcases hb with ⟨h, _⟩ | ⟨h, _⟩
    · exact absurd h hff.1
    · exact absurd h hff.2
  | create _ _ _ _ hff =>
    rcases hff with hff | ⟨p, hp, hff⟩
    · rw [h3, hc] at hff; cases hff
    · rw [h4, hd p (h5 ▸ hp)] at hff; cases hff
  | full w' cs henc _ hw =>
    obtain rfl := huniq cs henc
    refine ⟨w', hrun, by rw [hw]; simp [h2], fun q hq => ?_⟩
    rw [hw]
    simp [hq, h1]

end

/-! ## Cases -/

section

/-- A toy arithmetic on `Bool`, for the cases only. -/
local instance : FloatArith Bool where
  zero := false
  sub _ _ := true
  mul _ _ := true
  div _ _ := true
  neg _ := true
  fmax _ _ := true
  powi _ _ := true
  exp _ := true

/-- The star as a JSON graph and a bincode ordering; `out/` can be created. -/
def demoWorld (space : Nat) : World where
  files p := if p = "g.json" then some (Json.encGraph star.graph)
    else if p = "o.bin" then some (Bincode.encOrder star.order)
    else if p = "out/p" then some [1, 2, 3] else none
  dirs _ := false
  parent p := if p = "out/p" then some "out" else none
  noOpen _ := false
  noDir _ := false
  noCreate _ := false
  space := space
  log := []

def demoFiles (format : String) : FileArgs Bool where
  spacialGraph := ("g.json", "serde_json")
  dependencyGraph := ("o.bin", "bincode")
  doSearch := true
  timeout := none
  nthreads := 1
  taskBound := none
  probabilistic := none
  paths := ("out/p", format)

theorem demo_reads (space : Nat) (format : String) :
    Reads graphDecoders (demoWorld space) (demoFiles format).spacialGraph star.graph ∧
      Reads orderDecoders (demoWorld space) (demoFiles format).dependencyGraph star.order :=
  ⟨⟨_, rfl, rfl, .inl ⟨rfl, by decide +kernel⟩⟩, ⟨_, rfl, rfl, .inr ⟨rfl, by decide +kernel⟩⟩⟩

theorem demo_files_run (format : String) :
    run (demo 1000 []) star.graph star.order (passed (demoFiles format)) =
      .ok (some [⟨1, 4, [[1, 2, 3, 0]]⟩, ⟨2, 3, [[2, 3], [1, 0]]⟩, ⟨3, 2, [[3], [2], [1, 0]]⟩]) := star_run

/-- Success. -/
example : ∃ w', runSerialized (demo 1000 []) (demoWorld 1000) (demoFiles "serde_json") =
    .ok (some (w', .ok ())) :=
  C35_succeeds (demo_reads 1000 "serde_json").1 (demo_reads 1000 "serde_json").2
    (demo_files_run "serde_json") (.inl rfl) rfl (fun _ _ => rfl) (by
      rintro bs (⟨_, rfl⟩ | ⟨h, _⟩)
      · decide +kernel
      · exact absurd h (by decide))

/-- An unknown output format. -/
example : ∃ w', runSerialized (demo 1000 []) (demoWorld 1000) (demoFiles "bincdoe") =
    .ok (some (w', .error (.unknownFormat "bincdoe"))) ∧ SameDisk (demoWorld 1000) w' ∧
      .searched ∈ w'.log :=
  C35_format_late (demo_reads 1000 "bincdoe").1 (demo_reads 1000 "bincdoe").2
    (demo_files_run "bincdoe") (by decide)

/-- A full device. -/
example : ∃ w', runSerialized (demo 1000 []) (demoWorld 2) (demoFiles "serde_json") =
    .ok (some (w', .error .io)) ∧ w'.files "out/p" = some [91, 123] ∧
      ∀ q, q ≠ "out/p" → w'.files q = (demoWorld 2).files q := by
  have h := C35_full (demo_reads 2 "serde_json").1 (demo_reads 2 "serde_json").2
    (demo_files_run "serde_json") (.inl ⟨rfl, rfl⟩) rfl (fun _ _ => rfl) (by decide +kernel)
  have e : (pathsEncoders.json [⟨1, 4, [[1, 2, 3, 0]]⟩, ⟨2, 3, [[2, 3], [1, 0]]⟩,
    ⟨3, 2, [[3], [2], [1, 0]]⟩]).take 2 = [91, 123] := by decide +kernel
  obtain ⟨w', h1, h2, h3⟩ := h
  exact ⟨w', h1, h2.trans (congrArg some e), h3⟩

/-- An unreadable input: the ordering is not JSON. -/
example : ∀ o, ¬ Reads orderDecoders (demoWorld 0) ("o.bin", "serde_json") o := by
  rintro o ⟨bs, h1, _, ⟨_, h2⟩ | ⟨h2, _⟩⟩
  · have : bs = Bincode.encOrder star.order := (Option.some.inj h1).symm
    subst this
    have : orderDecoders.json (Bincode.encOrder star.order) = none := by decide +kernel
    rw [this] at h2
    cases h2
  · exact absurd h2 (by decide)

end

end Verif

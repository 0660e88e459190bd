import Verif.Model.FsLoader
import Verif.Spec.Path
/-!
# C92: the file system loader
-/

namespace JsonLd.Props
open JsonLd Spec Fs

theorem namesFrom_slash (a : Str) : ∀ (cur b : Str), namesFrom cur (a ++ '/' :: b) = namesFrom cur a ++ namesFrom [] b := by
  induction a with
  | nil => intro cur b; simp [namesFrom]
  | cons c a ih =>
    intro cur b
    simp only [List.cons_append, namesFrom]
    by_cases hc : c = '/'
    · rw [if_pos hc, if_pos hc, ih, List.append_assoc]
    · rw [if_neg hc, if_neg hc, ih]

theorem namesFrom_segment (s : Str) : ∀ cur : Str, '/' ∉ s → namesFrom cur s = if cur ++ s = [] then [] else [cur ++ s] := by
  induction s with
  | nil => intro cur _; simp [namesFrom]
  | cons c s ih =>
    intro cur h
    simp only [List.mem_cons, not_or] at h
    simp only [namesFrom]
    rw [if_neg (Ne.symm h.1), ih _ h.2, List.append_assoc]
    rfl

theorem pathNames_push (p s : Str) (hs : '/' ∉ s) :
    pathNames (pushPath p s) = pathNames p ++ if s = [] then [] else [s] := by
  have h0 : s.head? ≠ some '/' := by
    intro h
    exact hs (List.mem_of_head? h)
  have hn : pathNames s = if s = [] then [] else [s] := by
    unfold pathNames
    rw [namesFrom_segment s [] hs]
    rfl
  unfold pushPath
  rw [if_neg h0]
  split
  · rename_i h
    rcases h with rfl | h
    · rw [← hn]; rfl
    · obtain ⟨p', rfl⟩ := List.getLast?_eq_some_iff.1 h
      rw [List.append_assoc, ← hn]
      unfold pathNames
      rw [List.singleton_append, namesFrom_slash, namesFrom_slash p' [] []]
      simp [namesFrom]
  · rw [← hn]
    exact namesFrom_slash p [] s

/-- C92, which file. The file of an URL is found through the first mount point, in the order they were added, whose URL
is a prefix of it. Its names are those of the directory followed by the segments of the rest of the URL, empty ones
excepted, as long as the segments contain no slash (which none of an URL does). -/
theorem C92_file (suffix : Str → Str → Option (List Str)) (mounts : List (Str × Str)) (url : Str) :
    (∀ file, filepath suffix mounts url = some file →
      ∃ before path target after segments, mounts = before ++ (path, target) :: after ∧
        (∀ m ∈ before, suffix url m.2 = none) ∧ suffix url target = some segments ∧
        ((∀ s ∈ segments, '/' ∉ s) → pathNames file = pathNames path ++ segments.filter fun s => decide (s ≠ []))) ∧
    (filepath suffix mounts url = none ↔ ∀ m ∈ mounts, suffix url m.2 = none) := by
  have names : ∀ (segments : List Str) (path : Str), (∀ s ∈ segments, '/' ∉ s) →
      pathNames (segments.foldl pushPath path) = pathNames path ++ segments.filter fun s => decide (s ≠ []) := by
    intro segments
    induction segments with
    | nil => intro path _; simp
    | cons s segments ih =>
      intro path h
      rw [List.forall_mem_cons] at h
      rw [List.foldl_cons, ih _ h.2, pathNames_push path s h.1, List.filter_cons, List.append_assoc]
      by_cases hs : s = [] <;> simp [hs]
  induction mounts with
  | nil => exact ⟨nofun, by simp [filepath]⟩
  | cons m mounts ih =>
    obtain ⟨path, target⟩ := m
    cases hs : suffix url target with
    | some segments =>
      have he : filepath suffix ((path, target) :: mounts) url = some (segments.foldl pushPath path) := by
        simp only [filepath, hs]
      rw [he]
      refine ⟨?_, ⟨nofun, fun h => ?_⟩⟩
      · intro file hf
        cases hf
        exact ⟨[], path, target, mounts, segments, rfl, nofun, hs, names segments path⟩
      · have := h _ List.mem_cons_self
        rw [hs] at this
        cases this
    | none =>
      have he : filepath suffix ((path, target) :: mounts) url = filepath suffix mounts url := by
        simp only [filepath, hs]
      rw [he]
      refine ⟨?_, ?_⟩
      · intro file hf
        obtain ⟨b, p, t, a, segs, h1, h2, h3, h4⟩ := ih.1 file hf
        refine ⟨(path, target) :: b, p, t, a, segs, by rw [h1]; rfl, ?_, h3, h4⟩
        exact List.forall_mem_cons.2 ⟨hs, h2⟩
      · rw [ih.2, List.forall_mem_cons]
        exact ⟨fun h => ⟨hs, h⟩, fun h => h.2⟩

/-- C92, inside the directory: the file is in the directory that is mounted (its names begin with those of the directory,
and it does not climb up) if no segment is `..` or contains a slash. -/
theorem C92_inside (suffix : Str → Str → Option (List Str)) (mounts : List (Str × Str)) (url file : Str)
    (hs : ∀ m ∈ mounts, ∀ segments, suffix url m.2 = some segments → ∀ s ∈ segments, '/' ∉ s ∧ s ≠ "..".toList)
    (h : filepath suffix mounts url = some file) :
    ∃ m ∈ mounts, ∃ rest, pathNames file = pathNames m.1 ++ rest ∧ "..".toList ∉ rest := by
  obtain ⟨b, p, t, a, segs, h1, _, h3, h4⟩ := (C92_file suffix mounts url).1 file h
  have hm : (p, t) ∈ mounts := by rw [h1]; simp
  refine ⟨(p, t), hm, _, h4 fun s hx => (hs _ hm segs h3 s hx).1, ?_⟩
  intro hd
  exact (hs _ hm segs h3 _ (List.mem_filter.1 hd).1).2 rfl

/-- C92, mounting. A mount point added later changes nothing for the URLs that have a file already. -/
theorem C92_mount (suffix : Str → Str → Option (List Str)) (mounts : List (Str × Str)) (target path url : Str) :
    filepath suffix (mount mounts target path) url =
      match filepath suffix mounts url with
      | some file => some file
      | none => filepath suffix [(path, target)] url := by
  unfold mount
  induction mounts with
  | nil => rfl
  | cons m mounts ih =>
    obtain ⟨p, t⟩ := m
    simp only [List.cons_append, filepath]
    cases suffix url t with
    | some segs => rfl
    | none => exact ih

/-- C92, loading. A document is loaded exactly if the file of the URL is there and is JSON; it has the URL asked for, and
a load error names that URL. -/
theorem C92_load (suffix : Str → Str → Option (List Str)) (read : Str → Except Str Str) (parse : Str → Except Str Json)
    (mounts : List (Str × Str)) (url : Str) :
    (∀ d, load suffix read parse mounts url = .ok d ↔ ∃ file text, filepath suffix mounts url = some file ∧
      read file = .ok text ∧ parse text = .ok d.document ∧ d.url = some url ∧
      d.contentType = some "application/ld+json".toList ∧ d.contextUrl = none) ∧
    ∀ e, load suffix read parse mounts url = .error e → e.1 = url ∧
      (e.2 = .noMountPoint ↔ ∀ m ∈ mounts, suffix url m.2 = none) := by
  rw [← (C92_file suffix mounts url).2]
  unfold load
  cases hf : filepath suffix mounts url with
  | none =>
    refine ⟨fun d => ⟨nofun, ?_⟩, ?_⟩
    · rintro ⟨_, _, h, _⟩; cases h
    · rintro e h; cases h; simp
  | some file =>
    cases hr : read file with
    | error x =>
      refine ⟨fun d => ⟨by simp [hr], ?_⟩, ?_⟩
      · rintro ⟨_, _, h, h', _⟩; cases h; rw [hr] at h'; cases h'
      · rintro e h; simp only [hr] at h; cases h; simp
    | ok text =>
      cases hp : parse text with
      | error x =>
        refine ⟨fun d => ⟨by simp [hr, hp], ?_⟩, ?_⟩
        · rintro ⟨_, _, h, h', h'', _⟩; cases h; rw [hr] at h'; cases h'; rw [hp] at h''; cases h''
        · rintro e h; simp only [hr, hp] at h; cases h; simp
      | ok doc =>
        refine ⟨fun d => ⟨?_, ?_⟩, ?_⟩
        · intro h
          simp only [hr, hp] at h
          cases h
          exact ⟨file, text, rfl, hr, hp, rfl, rfl, rfl⟩
        · rintro ⟨_, _, h, h', h'', h1, h2, h3⟩
          cases h
          rw [hr] at h'
          cases h'
          rw [hp] at h''
          obtain ⟨u, ct, cu, dd⟩ := d
          simp only at h1 h2 h3 h''
          cases h''
          subst h1 h2 h3
          simp only [hr, hp]
        · rintro e h; simp only [hr, hp] at h; cases h

/-- The rest of a text after another and a slash, as segments. -/
def exSuffix (url target : Str) : Option (List Str) :=
  if target.isPrefixOf url then some (namesFrom [] (url.drop target.length)) else none

/-- C92: the most specific mount point is not preferred. With `u:` mounted on `/a` before `u:x/` on `/b`, the URL
`u:x/f` has the file `/a/x/f`. -/
theorem C92_shadowed :
    filepath exSuffix (mount (mount [] "u:".toList "/a".toList) "u:x/".toList "/b".toList) "u:x/f".toList =
      some "/a/x/f".toList ∧
    filepath exSuffix (mount (mount [] "u:x/".toList "/b".toList) "u:".toList "/a".toList) "u:x/f".toList =
      some "/b/f".toList := by
  decide

/-- C92: a segment `..` climbs out of the directory, if the path below the prefix keeps it. -/
theorem C92_dots : ∃ file, filepath exSuffix [("/a/b".toList, "u:".toList)] "u:../c".toList = some file ∧
    pathNames file = ["a".toList, "b".toList, "..".toList, "c".toList] :=
  ⟨_, rfl, by decide⟩

end JsonLd.Props

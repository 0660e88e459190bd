import Verif.Model.Loader
/-!
# The file system loader (`crates/core/src/loader/fs.rs`)

The path of an URL below another, `iref::IriRef::suffix`, is a parameter: `suffix url prefix` is the list of the segments
of the path that remains, if the second is a prefix of the first. So are the file system and the parser.
-/

namespace JsonLd.Fs

/-- `fs::Error`, crates/core/src/loader/fs.rs:9-23, with opaque payloads. -/
inductive FsError where
  | noMountPoint
  | io (e : Str)
  | parse (e : Str)
  deriving DecidableEq, Repr

/-- The documents loaded, crates/core/src/loader/mod.rs:189-191: URL, content type, content. -/
structure FsDocument where
  url : Option Str
  contentType : Option Str
  contextUrl : Option Str
  document : Json

/-- `std::path::PathBuf::push` on Unix (external): an absolute path replaces the path, a separator is added if there is
none at the end of a path that is not empty. -/
def pushPath (p s : Str) : Str :=
  if s.head? = some '/' then s
  else if p = [] ∨ p.getLast? = some '/' then p ++ s
  else p ++ '/' :: s

/-- `FsLoader::mount`, fs.rs:44-50: the mount points, in the order they were added. -/
def mount (mounts : List (Str × Str)) (url path : Str) : List (Str × Str) := mounts ++ [(path, url)]

/-- `FsLoader::filepath`, fs.rs:52-66. -/
def filepath (suffix : Str → Str → Option (List Str)) : List (Str × Str) → Str → Option Str
  | [], _ => none
  | (path, target) :: mounts, url => match suffix url target with
    | some segments => some (segments.foldl pushPath path)
    | none => filepath suffix mounts url

/-- `FsLoader::load`, fs.rs:69-91. `read` is `File::open` and `read_to_string`. The target of the error is the URL. -/
def load (suffix : Str → Str → Option (List Str)) (read : Str → Except Str Str) (parse : Str → Except Str Json)
    (mounts : List (Str × Str)) (url : Str) : Except (Str × FsError) FsDocument :=
  match filepath suffix mounts url with
  | none => .error (url, .noMountPoint)
  | some path => match read path with
    | .error e => .error (url, .io e)
    | .ok contents => match parse contents with
      | .error e => .error (url, .parse e)
      | .ok doc => .ok ⟨some url, some "application/ld+json".toList, none, doc⟩

end JsonLd.Fs

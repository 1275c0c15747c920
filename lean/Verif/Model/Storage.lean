import Verif.Model.Bytes
/-!
# Storage (`oca/src/data_storage.rs`)
-/
namespace OCA

/-- `Namespace` (`data_storage.rs:4-11`) -/
inductive Namespace where
  | oca | bundlesJson | objectsJson | coreModel | relations | references
deriving DecidableEq, Repr

/-- `Namespace::as_str` (`data_storage.rs:13-24`) -/
def Namespace.str : Namespace → Str
  | .oca => c!"oca"
  | .bundlesJson => c!"oca_bundles_json"
  | .objectsJson => c!"oca_objects_json"
  | .coreModel => c!"core_model"
  | .relations => c!"oca_relations"
  | .references => c!"oca_refs"

/-- `InMemoryDataStorage` (`data_storage.rs:147-150`) -/
abbrev Store := FMap (FMap Bytes)

/-- `InMemoryDataStorage::new` (`data_storage.rs:153-155`) -/
def Store.new : Store := FMap.empty

/-- `InMemoryDataStorage::get` (`data_storage.rs:161-170`) -/
def Store.get (s : Store) (ns : Namespace) (k : Str) : Res Str (Option Bytes) :=
  match FMap.get s ns.str with
  | none => .ok none
  | some m => match m.get k with
    | some v => .ok (some v)
    | none => .ok none

/-- `InMemoryDataStorage::get_all` (`data_storage.rs:172-177`) -/
def Store.getAll (s : Store) (ns : Namespace) : Res Str (FMap Bytes) :=
  match FMap.get s ns.str with
  | some m => .ok m
  | none => .ok FMap.empty

/-- `InMemoryDataStorage::insert` (`data_storage.rs:179-189`) -/
def Store.insert (s : Store) (ns : Namespace) (k : Str) (v : Bytes) : Res Str Store :=
  let m := match FMap.get s ns.str with
    | some m => m
    | none => FMap.empty
  .ok (FMap.insert s ns.str (m.insert k v))

/-- `SledDataStorage` (`data_storage.rs:45-48`): one tree per namespace, once opened. I/O errors of an opened
database are not modelled; `open_tree` creates an empty tree when there was none. -/
structure Sled where
  db : Option Store

/-- `SledDataStorage::get` (`data_storage.rs:107-117`) -/
def Sled.get (s : Sled) (ns : Namespace) (k : Str) : Res Str (Option Bytes) :=
  match s.db with
  | none => .err c!"Data Storage must be opened first"
  | some db => .ok (((FMap.get db ns.str).getD FMap.empty).get k)

/-- `SledDataStorage::get_all` (`data_storage.rs:119-132`) -/
def Sled.getAll (s : Sled) (ns : Namespace) : Res Str (FMap Bytes) :=
  match s.db with
  | none => .err c!"Data Storage must be opened first"
  | some db => .ok ((FMap.get db ns.str).getD FMap.empty)

/-- `SledDataStorage::insert` (`data_storage.rs:134-144`) -/
def Sled.insert (s : Sled) (ns : Namespace) (k : Str) (v : Bytes) : Res Str Sled :=
  match s.db with
  | none => .err c!"Data Storage must be opened first"
  | some db => .ok ⟨some (FMap.insert db ns.str (((FMap.get db ns.str).getD FMap.empty).insert k v))⟩

/-! ## Files -/

/-- The parts of a path between slashes. -/
def pathParts : Str → List Str
  | [] => [[]]
  | '/' :: t => [] :: pathParts t
  | c :: t => match pathParts t with
    | [] => [[c]]
    | p :: ps => (c :: p) :: ps

/-- One part of a path, followed from directory `d`: nothing or `.` stays, `..` goes up. -/
def pathStep (d : List Str) (p : Str) : List Str :=
  if p = [] ∨ p = c!"." then d else if p = c!".." then d.dropLast else d ++ [p]

/-- Where `PathBuf::push(key)` leads from directory `d`: from the root when `key` is absolute. -/
def pathPush (d : List Str) (key : Str) : List Str :=
  match key with
  | '/' :: _ => (pathParts key).foldl pathStep []
  | _ => (pathParts key).foldl pathStep d

/-- Files by their place, and the directories that exist. Symbolic links, permissions, name length limits and
other I/O errors are not modelled. -/
structure FileTree where
  files : List (List Str × Bytes)
  dirs : List (List Str)

/-- the content of the file at a place -/
def FileTree.read (t : FileTree) (p : List Str) : Option Bytes := (t.files.find? fun f => f.1 == p).map (·.2)

/-- `std::fs::write`: refused when the directory is missing or the place is a directory -/
def FileTree.write (t : FileTree) (p : List Str) (v : Bytes) : Option FileTree :=
  if p ∈ t.dirs ∨ p.dropLast ∉ t.dirs then none
  else some { t with files := (p, v) :: t.files.filter fun f => !(f.1 == p) }

/-- `std::fs::create_dir_all` -/
def FileTree.mkdirs (t : FileTree) (p : List Str) : FileTree :=
  { t with dirs := t.dirs ++ ((List.range (p.length + 1)).map fun n => p.take n).filter fun d => d ∉ t.dirs }

/-- `FileSystemStorage` (`data_storage.rs:192-195`) over a file tree -/
structure FileStore where
  dir : Option (List Str)
  tree : FileTree

/-- `FileSystemStorage::get` (`data_storage.rs:254-267`) -/
def FileStore.get (s : FileStore) (ns : Namespace) (k : Str) : Res Str (Option Bytes) :=
  match s.dir with
  | none => .err c!"File path is required"
  | some d => if d ++ [ns.str] ∈ s.tree.dirs then .ok (s.tree.read (pathPush (d ++ [ns.str]) k)) else .ok none

/-- `FileSystemStorage::get_all` (`data_storage.rs:269-271`) -/
def FileStore.getAll (_ : FileStore) (_ : Namespace) : Res Str (FMap Bytes) := .err c!"Not implemented"

/-- `FileSystemStorage::insert` (`data_storage.rs:273-286`) -/
def FileStore.insert (s : FileStore) (ns : Namespace) (k : Str) (v : Bytes) : Res Str FileStore :=
  match s.dir with
  | none => .err c!"File path is required"
  | some d =>
    let t := if d ++ [ns.str] ∈ s.tree.dirs then s.tree else s.tree.mkdirs (d ++ [ns.str])
    match t.write (pathPush (d ++ [ns.str]) k) v with
    | none => .err c!"I/O error"
    | some t => .ok { s with tree := t }

end OCA

/-
  The tests of tests/backend/in_memory.cpp on the model of the in-memory backend. See
  Conform/Basic.lean. Tests which only differ in what they look at are taken together; `fsync` and
  `close` of in-memory files (389-406) do nothing and are not in the model.
-/
import Verif.Backend.InMemory
import Verif.Conform.Basic
namespace Dragonstash.Conform
open Cache FS InMem

/-- An `InMemoryFilesystem` with this root (in_memory.cpp 263-268). -/
def memOf : Node → MemFS
  | .dir a ch => ⟨a, ch, true⟩
  | n => ⟨n.attr, [], true⟩

/-- An empty one. -/
def mem0 : Node := newDir

def modeIs (r : Res BStat) (m : Nat) : Bool := match r with | .ok s => fmt s.mode == m | .error _ => false
def errIs {α : Type} (r : Res α) (e : Errno) : Bool := match r with | .ok _ => false | .error x => x == e
def isOkRes {α : Type} (r : Res α) : Bool := match r with | .ok _ => true | .error _ => false

/-- 34-58: An empty fs. -/
example : errIs ((memOf mem0).lstat b!"") EINVAL = true ∧ modeIs ((memOf mem0).lstat b!"/") S_IFDIR = true := by decide +kernel

/-- 60-90: A directory at /foo. -/
example : let f := memOf (mem0.emplaceAt [] b!"foo" newDir)
    modeIs (f.lstat b!"/foo") S_IFDIR = true ∧ errIs (f.readlink b!"/foo") EINVAL = true ∧ errIs (f.open_ b!"/foo") EISDIR = true := by
  decide +kernel
/-- 92-104: Adding a nested file. -/
example : let f := memOf ((mem0.emplaceAt [] b!"foo" newDir).emplaceAt [b!"foo"] b!"f1" newFile)
    isOkRes (f.lstat b!"/foo/f1") = true := by decide +kernel

/-- 107-139: A file at /foo. -/
example : let f := memOf (mem0.emplaceAt [] b!"foo" newFile)
    modeIs (f.lstat b!"/foo") S_IFREG = true ∧ errIs (f.readlink b!"/foo") EINVAL = true ∧ errIs (f.opendir b!"/foo") ENOTDIR = true := by
  decide +kernel

/-- 141-187: A link at /foo. -/
example : let f := memOf (mem0.emplaceAt [] b!"foo" (newLink b!"some destination"))
    modeIs (f.lstat b!"/foo") S_IFLNK = true ∧ f.readlink b!"/foo" = .ok b!"some destination" ∧ errIs (f.open_ b!"/foo") EINVAL = true ∧
      errIs (f.opendir b!"/foo") ENOTDIR = true := by decide +kernel

/-- 193-227: Iterating an empty root directory. -/
example : (memOf mem0).opendir b!"/" = .ok ([b!".", b!".."], 0) := by decide +kernel

/-- 229-269: Iterating the root directory with a couple of entries (in undefined order). -/
example : let f := memOf ((mem0.emplaceAt [] b!"d1" newDir).emplaceAt [] b!"f1" newFile)
    f.opendir b!"/" = .ok ([b!".", b!"..", b!"d1", b!"f1"], 0) := by decide +kernel

/-- 275-304: the initial size is zero. -/
example : let f := memOf (mem0.emplaceAt [] b!"f1" newFile)
    (match f.lstat b!"/f1" with | .ok s => s.size == 0 | .error _ => false) = true ∧
    (match f.open_ b!"/f1" with | .ok (.file a _) => a.size == 0 | _ => false) = true := by decide +kernel

/-- 306-378: Writing to a location, reading the contents back, reading before the contents. -/
example : passes (⟨0, []⟩ : FileSt) (do
    let r ← (fun f => (pwrite f b!"random data" 2371).map fun x => (x.2, x.1) : T FileSt (Res Nat))
    check 327 (r = .ok 11)
    check 336 (fstatSize (← get) = 2371 + 11)
    let r ← (fun f => (pread f 11 2371).map fun x => (x, f) : T FileSt (Res Bytes))
    check 352 (r = .ok b!"random data")
    let r ← (fun f => (pread f 17 (2371 - 100)).map fun x => (x, f) : T FileSt (Res Bytes))
    check 370 (r = .ok (List.replicate 17 0))) = true := by decide +kernel

/-- 407-494: Reading behind, at and beyond the end of file. -/
example : passes (⟨0, []⟩ : FileSt) (do
    let r ← (fun f => (pwrite f b!"some random data" 0).map fun x => (x.2, x.1) : T FileSt (Res Nat))
    check 419 (r = .ok 16)
    let r ← (fun f => (pread f 17 1024).map fun x => (x, f) : T FileSt (Res Bytes))
    check 435 (r = .ok [])
    let r ← (fun f => (pread f 17 16).map fun x => (x, f) : T FileSt (Res Bytes))
    check 456 (r = .ok [])
    let r ← (fun f => (pread f 17 12).map fun x => (x, f) : T FileSt (Res Bytes))
    check 477 (r = .ok b!"data")) = true := by decide +kernel

/-- 499-502. -/
def memRemoval : Node := ((mem0.emplaceAt [] b!"f1" newFile).emplaceAt [] b!"dir" newDir).emplaceAt [b!"dir"] b!"f2" newFile

/-- 504-533: Removing the directory. -/
example : let f := memOf (memRemoval.removeAt [] b!"dir")
    errIs (f.lstat b!"/dir") ENOENT = true ∧ errIs (f.lstat b!"/dir/f2") ENOENT = true ∧ errIs (f.opendir b!"/dir") ENOENT = true ∧
      isOkRes (f.lstat b!"/f1") = true := by decide +kernel

/-- 535-568: Removing the file. -/
example : let f := memOf (memRemoval.removeAt [] b!"f1")
    errIs (f.lstat b!"/f1") ENOENT = true ∧ errIs (f.open_ b!"/f1") ENOENT = true ∧ isOkRes (f.lstat b!"/dir") = true ∧
      isOkRes (f.lstat b!"/dir/f2") = true := by decide +kernel

end Dragonstash.Conform

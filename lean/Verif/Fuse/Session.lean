/-
  Model of `Fuse::Session<Dragonstash::Filesystem>` (include/dragonstash/fuse/interface.hpp 37-290): the
  table of callbacks handed to libfuse, and what each of them calls: a member function of
  `Filesystem` (include/dragonstash/fs.hpp 52-61) if it has one, else the one of `Fuse::Interface`
  (src/fuse/interface.cpp 42-205), which answers ENOSYS.

  Arguments are as libfuse passes them: numbers, pointers (numbers too) and memory. Names are C
  strings: memory up to the first zero byte. `init` and `destroy` do nothing (interface.cpp 28-36).
-/
import Verif.FS.Model
namespace Dragonstash.Fuse
open FS Cache

/-- `struct fuse_file_info *`, `struct flock *` and other pointers which nobody follows. -/
abbrev Ptr := Nat

/-- Calls by libfuse of the functions in the table (interface.hpp 49-97), without the request handle. -/
inductive Cb where
  | lookup (parent : Ino) (name : Bytes)
  | forget (ino : Ino) (nlookup : Nat)
  | getattr (ino : Ino) (fi : Ptr)
  | setattr (ino : Ino) (attr : Ptr) (toSet : Nat) (fi : Ptr)
  | readlink (ino : Ino)
  | mknod (parent : Ino) (name : Bytes) (mode rdev : Nat)
  | mkdir (parent : Ino) (name : Bytes) (mode : Nat)
  | unlink (parent : Ino) (name : Bytes)
  | rmdir (parent : Ino) (name : Bytes)
  | symlink (link : Bytes) (parent : Ino) (name : Bytes)
  | rename (parent : Ino) (name : Bytes) (newparent : Ino) (newname : Bytes) (flags : Nat)
  | link (ino newparent : Ino) (name : Bytes)
  | open (ino : Ino) (fi : Ptr)
  | read (ino : Ino) (size off : Nat) (fi : Ptr)
  | write (ino : Ino) (buf : Bytes) (size off : Nat) (fi : Ptr)
  | flush (ino : Ino) (fi : Ptr)
  | release (ino : Ino) (fi : Ptr)
  | fsync (ino : Ino) (datasync : Nat) (fi : Ptr)
  | opendir (ino : Ino) (fi : Ptr)
  | readdir (ino : Ino) (size off : Nat) (fi : Ptr)
  | releasedir (ino : Ino) (fi : Ptr)
  | fsyncdir (ino : Ino) (datasync : Nat) (fi : Ptr)
  | statfs (ino : Ino)
  | setxattr (ino : Ino) (name value : Bytes) (size flags : Nat)
  | getxattr (ino : Ino) (name : Bytes) (size : Nat)
  | listxattr (ino : Ino) (size : Nat)
  | removexattr (ino : Ino) (name : Bytes)
  | access (ino : Ino) (mask : Nat)
  | create (parent : Ino) (name : Bytes) (mode : Nat) (fi : Ptr)
  | getlk (ino : Ino) (fi lock : Ptr)
  | setlk (ino : Ino) (fi lock : Ptr) (sleep : Nat)
  | bmap (ino : Ino) (blocksize idx : Nat)
  | ioctl (ino : Ino) (cmd : Nat) (arg fi : Ptr) (flags : Nat) (inBuf : Ptr) (inSize outSize : Nat)
  | poll (ino : Ino) (fi ph : Ptr)
  | writeBuf (ino : Ino) (bufv : Ptr) (offset : Nat) (fi : Ptr)
  | retrieveReply (cookie : Ptr) (ino : Ino) (offset : Nat) (bufv : Ptr)
  | forgetMulti (count : Nat) (forgets : List (Ino × Nat))
  | flock (ino : Ino) (fi : Ptr) (op : Nat)
  | fallocate (ino : Ino) (mode offset length : Nat) (fi : Ptr)
  | readdirplus (ino : Ino) (size off : Nat) (fi : Ptr)
  | copyFileRange (inoIn : Ino) (offIn : Nat) (fiIn : Ptr) (inoOut : Ino) (offOut : Nat) (fiOut : Ptr) (len flags : Nat)

/-- Conversion of a C string to `std::string_view`: up to the first zero byte. -/
def cstr : Bytes → Bytes
  | [] => []
  | c :: m => if c = 0 then [] else c :: cstr m

/-- The functions of the table: which member function of `Filesystem` is called, and with what
(interface.hpp 124-290). Where `Filesystem` has no such member, the one of `Fuse::Interface` runs:
`Req.other`. -/
def forward : Cb → Req
  | .lookup parent name => .lookup parent (cstr name)                   -- 129-131
  | .forget ino nlookup => .forget ino nlookup                          -- 133-135
  | .getattr ino _ => .getattr ino                                      -- 137-139
  | .setattr _ _ _ _ => .other
  | .readlink ino => .readlink ino                                      -- 145-147
  | .mknod _ _ _ _ => .other
  | .mkdir _ _ _ => .other
  | .unlink _ _ => .other
  | .rmdir _ _ => .other
  | .symlink _ _ _ => .other
  | .rename _ _ _ _ _ => .other
  | .link _ _ _ => .other
  | .open _ _ => .other
  | .read _ _ _ _ => .other
  | .write _ _ _ _ _ => .other
  | .flush _ _ => .other
  | .release _ _ => .other
  | .fsync _ _ _ => .other
  | .opendir ino _ => .opendir ino
  | .readdir ino size off _ => .readdir ino size off
  | .releasedir ino _ => .releasedir ino
  | .fsyncdir _ _ _ => .other
  | .statfs _ => .other
  | .setxattr _ _ _ _ _ => .other
  | .getxattr _ _ _ => .other
  | .listxattr _ _ => .other
  | .removexattr _ _ => .other
  | .access _ _ => .other
  | .create _ _ _ _ => .other
  | .getlk _ _ _ => .other
  | .setlk _ _ _ _ => .other
  | .bmap _ _ _ => .other
  | .ioctl _ _ _ _ _ _ _ _ => .other
  | .poll _ _ _ => .other
  | .writeBuf _ _ _ _ => .other
  | .retrieveReply _ _ _ _ => .other
  | .forgetMulti count forgets => .forgetMulti (forgets.take count)     -- fs.cpp 374-382
  | .flock _ _ _ => .other
  | .fallocate _ _ _ _ _ => .other
  | .readdirplus ino size off _ => .readdirplus ino size off
  | .copyFileRange _ _ _ _ _ _ _ _ => .other

/-- One callback (interface.hpp 37-41): the request object, the member function, the destruction of the
request object. -/
def callback (B : Backend) (disk : DB) (refs : Refs) (c : Cb) : M St := dispatch B disk refs (forward c)

/-- What the kernel gets for one callback, and with which answers of the backend it ran. -/
structure Turn where
  backend : Backend
  cb : Cb

/-- A session in one thread: the callbacks one after the other; the answers sent for each of them, the
state at the end. An exception ends it. -/
def run : List Turn → DB × Refs → M ((DB × Refs) × List (List Reply))
  | [], s => .ok (s, [])
  | t :: l, s => do
    let st ← callback t.backend s.1 s.2 t.cb
    match st.fault with
    | some f => .error f
    | none =>
      let (s', a) ← run l (st.disk, st.refs)
      pure (s', st.sent :: a)

end Dragonstash.Fuse

/-
  Model, byte by byte, of the directory buffers (include/dragonstash/fuse/buffer.hpp 37-100,
  src/fuse/buffer.cpp), with the two functions of libfuse which fill them (libfuse 3, lib/fuse_lowlevel.c:
  fuse_add_direntry, fuse_add_direntry_plus, fill_entry, convert_stat; include/fuse_kernel.h: struct
  fuse_dirent, fuse_direntplus, fuse_entry_out, fuse_attr) and the parser at the other end (Linux,
  fs/fuse/readdir.c: parse_dirfile, parse_dirplusfile). libfuse and the kernel are not part of /repo;
  these definitions are assumptions about them. Numbers are little endian.
-/
import Verif.FS.Model
namespace Dragonstash.DirBuf
open Cache FS

/-! ### libfuse -/

/-- `FUSE_DIRENT_ALIGN` -/
def align8 (n : Nat) : Nat := (n + 7) / 8 * 8

def zeros (n : Nat) : Bytes := List.replicate n 0

/-- `struct fuse_dirent` with the name and its padding, as `fuse_add_direntry` writes it; `name` ends
at its first NUL. The type is `(st_mode & S_IFMT) >> 12`. -/
def dirent (name : Bytes) (st : OsStat) (off : Nat) : Bytes :=
  let nm := cstr name
  leEnc 8 st.ino ++ (leEnc 8 off ++ (leEnc 4 nm.length ++ (leEnc 4 (fmt st.mode / 4096) ++ (nm ++ zeros (align8 (24 + nm.length) - (24 + nm.length))))))

/-- `convert_stat` to `struct fuse_attr` (`rdev` and `flags` are 0). -/
def attrOut (st : OsStat) : Bytes :=
  leEnc 8 st.ino ++ (leEnc 8 st.size ++ (leEnc 8 st.blocks ++ (leEnc 8 st.atime.sec ++ (leEnc 8 st.mtime.sec ++ (leEnc 8 st.ctime.sec
    ++ (leEnc 4 st.atime.nsec ++ (leEnc 4 st.mtime.nsec ++ (leEnc 4 st.ctime.nsec ++ (leEnc 4 st.mode ++ (leEnc 4 st.nlink
    ++ (leEnc 4 st.uid ++ (leEnc 4 st.gid ++ (leEnc 4 0 ++ (leEnc 4 st.blksize ++ leEnc 4 0))))))))))))))

/-- `fill_entry` to `struct fuse_entry_out`: node, generation 0, one second of validity of the entry and
of the attributes, attributes. -/
def entryOut (ino : Ino) (st : OsStat) : Bytes :=
  leEnc 8 ino ++ (leEnc 8 0 ++ (leEnc 8 1 ++ (leEnc 8 1 ++ (leEnc 4 0 ++ (leEnc 4 0 ++ attrOut st)))))

/-- `struct fuse_direntplus` -/
def direntplus (name : Bytes) (ino : Ino) (st : OsStat) (off : Nat) : Bytes := entryOut ino st ++ dirent name st off

/-- `fuse_add_direntry(req, buf, bufsize, name, stbuf, off)`: the size which is needed; with enough
space at `pos` in `buf` the entry is written there. `buf = none` is the null pointer. -/
def addDirentry (buf : Option (Bytes × Nat)) (bufsize : Nat) (name : Bytes) (st : OsStat) (off : Nat) : Nat × Bytes :=
  let len := align8 (24 + (cstr name).length)
  match buf with
  | none => (len, [])
  | some (b, pos) => if bufsize < len then (len, b) else (len, b.take pos ++ dirent name st off ++ b.drop (pos + len))

/-- `fuse_add_direntry_plus` -/
def addDirentryPlus (buf : Option (Bytes × Nat)) (bufsize : Nat) (name : Bytes) (ino : Ino) (st : OsStat) (off : Nat) : Nat × Bytes :=
  let len := align8 (152 + (cstr name).length)
  match buf with
  | none => (len, [])
  | some (b, pos) => if bufsize < len then (len, b) else (len, b.take pos ++ direntplus name ino st off ++ b.drop (pos + len))

/-! ### The buffers -/

/-- `std::basic_string::resize` -/
def resize (b : Bytes) (n : Nat) : Bytes := b.take n ++ zeros (n - b.length)

/-- A value of type `struct stat` all of whose fields are 0. -/
def noStat : OsStat := ⟨0, 0, 0, 0, 0, 0, 0, 0, ⟨0, 0⟩, ⟨0, 0⟩, ⟨0, 0⟩⟩

/-- `DirBuffer::prepare_add` (buffer.cpp 31-38): new contents, old size. -/
def prepareAdd (b : Bytes) (name : Bytes) : Bytes × Nat :=
  let old := b.length
  let new := old + (addDirentry none 0 name noStat 0).1
  (resize b new, old)

/-- `DirBuffer::add` with an offset (buffer.cpp 40-44). -/
def add (b : Bytes) (name : Bytes) (st : OsStat) (off : Nat) : Bytes :=
  let (b, old) := prepareAdd b name
  (addDirentry (some (b, old)) (b.length - old) name st off).2

/-- `DirBuffer::add` without one (buffer.cpp 46-52): the offset is the size of the buffer. -/
def addHere (b : Bytes) (name : Bytes) (st : OsStat) : Bytes :=
  let (b, old) := prepareAdd b name
  (addDirentry (some (b, old)) (b.length - old) name st b.length).2

/-- `DirBufferPlus::prepare_add` (buffer.cpp 54-64). -/
def prepareAddPlus (b : Bytes) (name : Bytes) (ino : Ino) (st : OsStat) : Bytes × Nat :=
  let old := b.length
  let new := old + (addDirentryPlus none 0 name ino st 0).1
  (resize b new, old)

/-- `DirBufferPlus::execute_add` (buffer.cpp 66-73). -/
def executeAdd (b : Bytes) (old : Nat) (name : Bytes) (ino : Ino) (st : OsStat) (off : Nat) : Bytes :=
  (addDirentryPlus (some (b, old)) (b.length - old) name ino st off).2

/-- `DirBufferPlus::add` with an offset (buffer.cpp 75-81). -/
def addPlus (b : Bytes) (name : Bytes) (ino : Ino) (st : OsStat) (off : Nat) : Bytes :=
  let (b, old) := prepareAddPlus b name ino st
  executeAdd b old name ino st off

/-- `DirBufferPlus::add` without one (buffer.cpp 83-87). -/
def addPlusHere (b : Bytes) (name : Bytes) (ino : Ino) (st : OsStat) : Bytes :=
  let (b, old) := prepareAddPlus b name ino st
  executeAdd b old name ino st b.length

/-- `DirBufferPlus::rewind` (buffer.hpp 93-97). -/
def rewind (b : Bytes) (offs : Nat) : Bytes := if offs < b.length then resize b offs else b

/-! ### The kernel -/

/-- What the kernel takes from an entry: for the program which reads the directory inode number, type
and name, and the offset where it goes on behind it. -/
structure KEnt where
  ino : Nat
  off : Nat
  type : Nat
  name : Bytes
  deriving DecidableEq

/-- `struct fuse_dirent` at the start of `b`. -/
def readDirent (b : Bytes) : KEnt :=
  ⟨fieldAt b 0 8, fieldAt b 8 8, fieldAt b 20 4, (b.drop 24).take (fieldAt b 16 4)⟩

/-- `FUSE_NAME_MAX` -/
def nameMax : Nat := 1024

/-- `parse_dirfile`: entries until less than a header, or an entry which is not complete, is left.
An entry without a name, with a long name, or with a slash in its name makes it fail. (`fuel` bounds the number of
entries.) -/
def parse : Nat → Bytes → List KEnt × Res Unit
  | 0, _ => ([], .ok ())
  | f + 1, b =>
    if b.length < 24 then ([], .ok ())
    else
      let namelen := fieldAt b 16 4
      let reclen := align8 (24 + namelen)
      if namelen = 0 ∨ nameMax < namelen then ([], .error EIO)
      else if b.length < reclen then ([], .ok ())
      else
        let e := readDirent b
        if 0x2f ∈ e.name then ([], .error EIO)
        else
          let (l, r) := parse f (b.drop reclen)
          (e :: l, r)

/-- The kernel reads the data of a reply to READDIR. (There is a byte in every entry.) -/
def kernelReads (b : Bytes) : List KEnt × Res Unit := parse (b.length + 1) b

/-- `struct fuse_attr` at offset `o`. -/
def readAttr (b : Bytes) (o : Nat) : OsStat :=
  { ino := fieldAt b o 8, size := fieldAt b (o + 8) 8, blocks := fieldAt b (o + 16) 8,
    atime := ⟨fieldAt b (o + 24) 8, fieldAt b (o + 48) 4⟩, mtime := ⟨fieldAt b (o + 32) 8, fieldAt b (o + 52) 4⟩,
    ctime := ⟨fieldAt b (o + 40) 8, fieldAt b (o + 56) 4⟩, mode := fieldAt b (o + 60) 4, nlink := fieldAt b (o + 64) 4,
    uid := fieldAt b (o + 68) 4, gid := fieldAt b (o + 72) 4, blksize := fieldAt b (o + 80) 4 }

/-- An entry with what is in `struct fuse_entry_out`: the inode whose lookup count is raised, and the
attributes. -/
structure KEntPlus where
  ent : KEnt
  node : Nat
  attr : OsStat
  deriving DecidableEq

/-- `parse_dirplusfile` -/
def parsePlus : Nat → Bytes → List KEntPlus × Res Unit
  | 0, _ => ([], .ok ())
  | f + 1, b =>
    if b.length < 152 then ([], .ok ())
    else
      let namelen := fieldAt b 144 4
      let reclen := align8 (152 + namelen)
      if namelen = 0 ∨ nameMax < namelen then ([], .error EIO)
      else if b.length < reclen then ([], .ok ())
      else
        let e := readDirent (b.drop 128)
        if 0x2f ∈ e.name then ([], .error EIO)
        else
          let (l, r) := parsePlus f (b.drop reclen)
          (⟨e, fieldAt b 0 8, readAttr b 40⟩ :: l, r)

/-- The kernel reads the data of a reply to READDIRPLUS. -/
def kernelReadsPlus (b : Bytes) : List KEntPlus × Res Unit := parsePlus (b.length + 1) b

end Dragonstash.DirBuf

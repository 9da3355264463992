/-
  A test of tests/cache/blocklist.cpp which fills more than a page. Generated by tools/gen_conform.py.
-/
import Verif.Conform.BlocklistLoop2
namespace Dragonstash.Conform
open Blocklist

/-- tests/cache/blocklist.cpp 1065: fsck shrinks -/
example : passes fresh (do
  let cap ← capacityNow
  forBelow (cap + 1) fun i => do
    mark_ (i  *  2) 1 .read
  num 1076 capacity (· > cap)
  num 1077 nentries (· = (cap+1))
  mark_ 0 cap .absent
  fsck_
  num 1084 nentries (· ≤ cap)
  num 1085 capacity (· = cap)
  fsck_) = true := by decide +kernel

end Dragonstash.Conform

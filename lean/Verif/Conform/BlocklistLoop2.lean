/-
  A test of tests/cache/blocklist.cpp which fills more than a page. Generated by tools/gen_conform.py.
-/
import Verif.Conform.BlocklistLoop1
namespace Dragonstash.Conform
open Blocklist

/-- tests/cache/blocklist.cpp 1038: Shrink after growth -/
example : passes fresh (do
  let cap ← capacityNow
  forBelow (cap + 1) fun i => do
    mark_ (i  *  2) 1 .read
  num 1049 capacity (· > cap)
  num 1050 nentries (· = (cap+1))
  mark_ 0 cap .absent
  num 1057 capacity (· > cap)
  shrink_
  num 1061 nentries (· ≤ cap)
  num 1062 capacity (· = cap)
  fsck_) = true := by decide +kernel

end Dragonstash.Conform

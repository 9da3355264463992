/-
  A test of tests/cache/blocklist.cpp which fills more than a page. Generated by tools/gen_conform.py.
-/
import Verif.Conform.Blocklist
namespace Dragonstash.Conform
open Blocklist

/-- tests/cache/blocklist.cpp 299: Force grow of mapping -/
example : passes fresh (do
  let cap ← capacityNow
  forBelow (cap + 1) fun i => do
    mark_ (i  *  2) 1 .read
    num 308 nentries (· = (i + 1))
  num 311 capacity (· > cap)
  num 312 nentries (· = (cap+1))
  forBelow (cap + 1) fun i => do
    stateIs 315 (i * 2) .read
    stateIs 316 (i * 2+1) .absent
  fsck_) = true := by decide +kernel

end Dragonstash.Conform

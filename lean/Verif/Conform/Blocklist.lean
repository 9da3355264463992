/-
  The tests of tests/cache/blocklist.cpp on the model of `Blocklist`. Generated by
  tools/gen_conform.py; see Conform/Basic.lean.
-/
import Verif.Blocklist.Model
import Verif.Conform.Basic
namespace Dragonstash.Conform
open Blocklist

abbrev B := T File Unit

def mark_ (s c : Nat) (st : State) : B := fun f => (mark f s c st).map fun g => ((), g)
def fsck_ : B := fun f => (fsck f).map fun g => ((), g)
def shrink_ : B := fun f => (shrink f).map fun g => ((), g)
def stateIs (line b : Nat) (s : State) : B := fun f => do check line (decide ((← stateAt f b) = s)) f
def truncIs (line s c r : Nat) : B := fun f => do check line (decide ((← truncateAccess f s c) = r)) f
def num (line : Nat) (g : File → Nat) (p : Nat → Prop) [DecidablePred p] : B := fun f => check line (decide (p (g f))) f
def capacityNow : T File Nat := fun f => .ok (capacity f, f)
/-- Destruction of the object and opening the file again: only the mapping is lost. -/
def reopen : B := fun f => .ok ((), ensureMapped (ensureUnmapped f))
def forFrom (i : Nat) : Nat → (Nat → B) → B
  | 0, _ => pure ()
  | k + 1, g => do g i; forFrom (i + 1) k g
/-- `for (i = 0; i < n; ++i)`. -/
def forBelow (n : Nat) (g : Nat → B) : B := forFrom 0 n g

/-- tests/cache/blocklist.cpp 67: Defaults of an empty cache -/
example : passes fresh (do
  num 72 presentBlocks (· = 0)
  num 73 (fun f => blocks f .read) (· = 0)
  num 74 (fun f => blocks f .readahead) (· = 0)
  num 75 (fun f => blocks f .written) (· = 0)
  num 76 (fun f => blocks f .pinned) (· = 0)
  stateIs 78 0 .absent
  num 79 capacity (· > 0)
  num 80 nentries (· = 0)
  fsck_) = true := by decide +kernel

/-- tests/cache/blocklist.cpp 83: Mark a page as readahead -/
example : passes fresh (do
  mark_ 2 1 .readahead
  stateIs 90 1 .absent
  stateIs 91 2 .readahead
  stateIs 92 3 .absent
  num 94 nentries (· = 1)
  fsck_) = true := by decide +kernel

/-- tests/cache/blocklist.cpp 97: Mark a page range as readahead -/
example : passes fresh (do
  mark_ 2 3 .readahead
  stateIs 103 1 .absent
  stateIs 104 2 .readahead
  stateIs 105 3 .readahead
  stateIs 106 4 .readahead
  stateIs 107 5 .absent
  num 109 nentries (· = 1)
  fsck_) = true := by decide +kernel

/-- tests/cache/blocklist.cpp 112: Noop mark -/
example : passes fresh (do
  mark_ 2 0 .readahead
  stateIs 119 1 .absent
  stateIs 120 2 .absent
  stateIs 121 3 .absent
  num 123 nentries (· = 0)
  fsck_) = true := by decide +kernel

/-- tests/cache/blocklist.cpp 126: Change marking of a page -/
example : passes fresh (do
  mark_ 2 1 .readahead
  mark_ 2 1 .read
  stateIs 134 1 .absent
  stateIs 135 2 .read
  stateIs 136 3 .absent
  num 138 nentries (· = 1)
  fsck_) = true := by decide +kernel

/-- tests/cache/blocklist.cpp 141: Change marking of a single page out of a previously marked range -/
example : passes fresh (do
  mark_ 2 3 .readahead
  mark_ 3 1 .read
  stateIs 150 1 .absent
  stateIs 151 2 .readahead
  stateIs 152 3 .read
  stateIs 153 4 .readahead
  stateIs 154 5 .absent
  num 156 nentries (· = 3)
  fsck_) = true := by decide +kernel

/-- tests/cache/blocklist.cpp 159: Join ranges of marked pages if compatible state -/
example : passes fresh (do
  mark_ 2 1 .readahead
  mark_ 4 1 .readahead
  mark_ 3 1 .readahead
  stateIs 168 1 .absent
  stateIs 169 2 .readahead
  stateIs 170 3 .readahead
  stateIs 171 4 .readahead
  stateIs 172 5 .absent
  num 174 nentries (· = 1)
  fsck_) = true := by decide +kernel

/-- tests/cache/blocklist.cpp 177: Do not join ranges of marked pages if incompatible state -/
example : passes fresh (do
  mark_ 2 1 .readahead
  mark_ 4 1 .readahead
  mark_ 3 1 .read
  stateIs 186 1 .absent
  stateIs 187 2 .readahead
  stateIs 188 3 .read
  stateIs 189 4 .readahead
  stateIs 190 5 .absent
  num 192 nentries (· = 3)
  fsck_) = true := by decide +kernel

/-- tests/cache/blocklist.cpp 195: Join ranges of marked pages on partial state change -/
example : passes fresh (do
  mark_ 2 2 .read
  mark_ 1 1 .readahead
  mark_ 4 1 .readahead
  stateIs 204 0 .absent
  stateIs 205 1 .readahead
  stateIs 206 2 .read
  stateIs 207 3 .read
  stateIs 208 4 .readahead
  stateIs 209 5 .absent
  mark_ 3 1 .readahead
  stateIs 213 0 .absent
  stateIs 214 1 .readahead
  stateIs 215 2 .read
  stateIs 216 3 .readahead
  stateIs 217 4 .readahead
  stateIs 218 5 .absent
  num 220 nentries (· = 3)
  fsck_) = true := by decide +kernel

/-- tests/cache/blocklist.cpp 223: Join ranges of marked pages on exact hit state change -/
example : passes fresh (do
  mark_ 2 1 .read
  mark_ 1 1 .readahead
  mark_ 3 1 .readahead
  mark_ 2 1 .readahead
  stateIs 233 0 .absent
  stateIs 234 1 .readahead
  stateIs 235 2 .readahead
  stateIs 236 3 .readahead
  stateIs 237 4 .absent
  num 239 nentries (· = 1)
  fsck_) = true := by decide +kernel

/-- tests/cache/blocklist.cpp 242: Partially change state of existing range -/
example : passes fresh (do
  mark_ 2 3 .readahead
  mark_ 1 2 .read
  stateIs 250 0 .absent
  stateIs 251 1 .read
  stateIs 252 2 .read
  stateIs 253 3 .readahead
  stateIs 254 4 .readahead
  stateIs 255 5 .absent
  num 257 nentries (· = 2)
  fsck_) = true := by decide +kernel

/-- tests/cache/blocklist.cpp 260: Completely override following range -/
example : passes fresh (do
  mark_ 2 3 .readahead
  mark_ 1 5 .read
  stateIs 268 0 .absent
  stateIs 269 1 .read
  stateIs 270 2 .read
  stateIs 271 3 .read
  stateIs 272 4 .read
  stateIs 273 5 .read
  stateIs 274 6 .absent
  num 276 nentries (· = 1)
  fsck_) = true := by decide +kernel

/-- tests/cache/blocklist.cpp 279: Override multiple independent ranges -/
example : passes fresh (do
  mark_ 2 1 .readahead
  mark_ 4 1 .readahead
  mark_ 1 5 .read
  stateIs 288 0 .absent
  stateIs 289 1 .read
  stateIs 290 2 .read
  stateIs 291 3 .read
  stateIs 292 4 .read
  stateIs 293 5 .read
  stateIs 294 6 .absent
  num 296 nentries (· = 1)
  fsck_) = true := by decide +kernel

/-- tests/cache/blocklist.cpp 320: Mark base cases. Case 1: neither start nor end overlap -/
example : passes fresh (do
  mark_ 1 3 .read
  mark_ 7 3 .read
  stateIs 328 0 .absent
  stateIs 329 1 .read
  stateIs 330 2 .read
  stateIs 331 3 .read
  stateIs 332 4 .absent
  stateIs 333 5 .absent
  stateIs 334 6 .absent
  stateIs 335 7 .read
  stateIs 336 8 .read
  stateIs 337 9 .read
  stateIs 338 10 .absent
  num 340 nentries (· = 2)
  num 342 (fun f => blocks f .readahead) (· = 0)
  num 343 (fun f => blocks f .read) (· = 6)
  num 344 presentBlocks (· = 6)
  mark_ 4 3 .readahead
  stateIs 349 0 .absent
  stateIs 350 1 .read
  stateIs 351 2 .read
  stateIs 352 3 .read
  stateIs 353 4 .readahead
  stateIs 354 5 .readahead
  stateIs 355 6 .readahead
  stateIs 356 7 .read
  stateIs 357 8 .read
  stateIs 358 9 .read
  stateIs 359 10 .absent
  num 361 nentries (· = 3)
  num 363 (fun f => blocks f .readahead) (· = 3)
  num 364 (fun f => blocks f .read) (· = 6)
  num 365 presentBlocks (· = 9)
  fsck_) = true := by decide +kernel

/-- tests/cache/blocklist.cpp 320: Mark base cases. Case 2: start overlaps, end does not -/
example : passes fresh (do
  mark_ 1 3 .read
  mark_ 7 3 .read
  stateIs 328 0 .absent
  stateIs 329 1 .read
  stateIs 330 2 .read
  stateIs 331 3 .read
  stateIs 332 4 .absent
  stateIs 333 5 .absent
  stateIs 334 6 .absent
  stateIs 335 7 .read
  stateIs 336 8 .read
  stateIs 337 9 .read
  stateIs 338 10 .absent
  num 340 nentries (· = 2)
  num 342 (fun f => blocks f .readahead) (· = 0)
  num 343 (fun f => blocks f .read) (· = 6)
  num 344 presentBlocks (· = 6)
  mark_ 3 4 .readahead
  stateIs 371 0 .absent
  stateIs 372 1 .read
  stateIs 373 2 .read
  stateIs 374 3 .readahead
  stateIs 375 4 .readahead
  stateIs 376 5 .readahead
  stateIs 377 6 .readahead
  stateIs 378 7 .read
  stateIs 379 8 .read
  stateIs 380 9 .read
  stateIs 381 10 .absent
  num 383 nentries (· = 3)
  num 385 (fun f => blocks f .readahead) (· = 4)
  num 386 (fun f => blocks f .read) (· = 5)
  num 387 presentBlocks (· = 9)
  fsck_) = true := by decide +kernel

/-- tests/cache/blocklist.cpp 320: Mark base cases. Case 3: both overlap, but are not equal -/
example : passes fresh (do
  mark_ 1 3 .read
  mark_ 7 3 .read
  stateIs 328 0 .absent
  stateIs 329 1 .read
  stateIs 330 2 .read
  stateIs 331 3 .read
  stateIs 332 4 .absent
  stateIs 333 5 .absent
  stateIs 334 6 .absent
  stateIs 335 7 .read
  stateIs 336 8 .read
  stateIs 337 9 .read
  stateIs 338 10 .absent
  num 340 nentries (· = 2)
  num 342 (fun f => blocks f .readahead) (· = 0)
  num 343 (fun f => blocks f .read) (· = 6)
  num 344 presentBlocks (· = 6)
  mark_ 3 5 .readahead
  stateIs 393 0 .absent
  stateIs 394 1 .read
  stateIs 395 2 .read
  stateIs 396 3 .readahead
  stateIs 397 4 .readahead
  stateIs 398 5 .readahead
  stateIs 399 6 .readahead
  stateIs 400 7 .readahead
  stateIs 401 8 .read
  stateIs 402 9 .read
  stateIs 403 10 .absent
  num 405 nentries (· = 3)
  num 407 (fun f => blocks f .readahead) (· = 5)
  num 408 (fun f => blocks f .read) (· = 4)
  num 409 presentBlocks (· = 9)
  fsck_) = true := by decide +kernel

/-- tests/cache/blocklist.cpp 320: Mark base cases. Case 4: end overlaps, start does not -/
example : passes fresh (do
  mark_ 1 3 .read
  mark_ 7 3 .read
  stateIs 328 0 .absent
  stateIs 329 1 .read
  stateIs 330 2 .read
  stateIs 331 3 .read
  stateIs 332 4 .absent
  stateIs 333 5 .absent
  stateIs 334 6 .absent
  stateIs 335 7 .read
  stateIs 336 8 .read
  stateIs 337 9 .read
  stateIs 338 10 .absent
  num 340 nentries (· = 2)
  num 342 (fun f => blocks f .readahead) (· = 0)
  num 343 (fun f => blocks f .read) (· = 6)
  num 344 presentBlocks (· = 6)
  mark_ 4 4 .readahead
  stateIs 415 0 .absent
  stateIs 416 1 .read
  stateIs 417 2 .read
  stateIs 418 3 .read
  stateIs 419 4 .readahead
  stateIs 420 5 .readahead
  stateIs 421 6 .readahead
  stateIs 422 7 .readahead
  stateIs 423 8 .read
  stateIs 424 9 .read
  stateIs 425 10 .absent
  num 427 nentries (· = 3)
  num 429 (fun f => blocks f .readahead) (· = 4)
  num 430 (fun f => blocks f .read) (· = 5)
  num 431 presentBlocks (· = 9)
  fsck_) = true := by decide +kernel

/-- tests/cache/blocklist.cpp 320: Mark base cases. Case 5: fully covered by existing range -/
example : passes fresh (do
  mark_ 1 3 .read
  mark_ 7 3 .read
  stateIs 328 0 .absent
  stateIs 329 1 .read
  stateIs 330 2 .read
  stateIs 331 3 .read
  stateIs 332 4 .absent
  stateIs 333 5 .absent
  stateIs 334 6 .absent
  stateIs 335 7 .read
  stateIs 336 8 .read
  stateIs 337 9 .read
  stateIs 338 10 .absent
  num 340 nentries (· = 2)
  num 342 (fun f => blocks f .readahead) (· = 0)
  num 343 (fun f => blocks f .read) (· = 6)
  num 344 presentBlocks (· = 6)
  mark_ 2 1 .readahead
  stateIs 437 0 .absent
  stateIs 438 1 .read
  stateIs 439 2 .readahead
  stateIs 440 3 .read
  stateIs 441 4 .absent
  stateIs 442 5 .absent
  stateIs 443 6 .absent
  stateIs 444 7 .read
  stateIs 445 8 .read
  stateIs 446 9 .read
  stateIs 447 10 .absent
  num 449 nentries (· = 4)
  num 451 (fun f => blocks f .readahead) (· = 1)
  num 452 (fun f => blocks f .read) (· = 5)
  num 453 presentBlocks (· = 6)
  fsck_) = true := by decide +kernel

/-- tests/cache/blocklist.cpp 457: Unmark base cases. Case 1: neither start nor end overlap -/
example : passes fresh (do
  mark_ 1 3 .read
  mark_ 7 3 .read
  stateIs 465 0 .absent
  stateIs 466 1 .read
  stateIs 467 2 .read
  stateIs 468 3 .read
  stateIs 469 4 .absent
  stateIs 470 5 .absent
  stateIs 471 6 .absent
  stateIs 472 7 .read
  stateIs 473 8 .read
  stateIs 474 9 .read
  stateIs 475 10 .absent
  num 477 nentries (· = 2)
  num 479 (fun f => blocks f .read) (· = 6)
  num 480 presentBlocks (· = 6)
  mark_ 4 3 .absent
  stateIs 485 0 .absent
  stateIs 486 1 .read
  stateIs 487 2 .read
  stateIs 488 3 .read
  stateIs 489 4 .absent
  stateIs 490 5 .absent
  stateIs 491 6 .absent
  stateIs 492 7 .read
  stateIs 493 8 .read
  stateIs 494 9 .read
  stateIs 495 10 .absent
  num 497 nentries (· = 2)
  num 499 (fun f => blocks f .read) (· = 6)
  num 500 presentBlocks (· = 6)
  fsck_) = true := by decide +kernel

/-- tests/cache/blocklist.cpp 457: Unmark base cases. Case 2: start overlaps, end does not -/
example : passes fresh (do
  mark_ 1 3 .read
  mark_ 7 3 .read
  stateIs 465 0 .absent
  stateIs 466 1 .read
  stateIs 467 2 .read
  stateIs 468 3 .read
  stateIs 469 4 .absent
  stateIs 470 5 .absent
  stateIs 471 6 .absent
  stateIs 472 7 .read
  stateIs 473 8 .read
  stateIs 474 9 .read
  stateIs 475 10 .absent
  num 477 nentries (· = 2)
  num 479 (fun f => blocks f .read) (· = 6)
  num 480 presentBlocks (· = 6)
  mark_ 3 4 .absent
  stateIs 506 0 .absent
  stateIs 507 1 .read
  stateIs 508 2 .read
  stateIs 509 3 .absent
  stateIs 510 4 .absent
  stateIs 511 5 .absent
  stateIs 512 6 .absent
  stateIs 513 7 .read
  stateIs 514 8 .read
  stateIs 515 9 .read
  stateIs 516 10 .absent
  num 518 nentries (· = 2)
  num 520 (fun f => blocks f .read) (· = 5)
  num 521 presentBlocks (· = 5)
  fsck_) = true := by decide +kernel

/-- tests/cache/blocklist.cpp 457: Unmark base cases. Case 3: both overlap, but are not equal -/
example : passes fresh (do
  mark_ 1 3 .read
  mark_ 7 3 .read
  stateIs 465 0 .absent
  stateIs 466 1 .read
  stateIs 467 2 .read
  stateIs 468 3 .read
  stateIs 469 4 .absent
  stateIs 470 5 .absent
  stateIs 471 6 .absent
  stateIs 472 7 .read
  stateIs 473 8 .read
  stateIs 474 9 .read
  stateIs 475 10 .absent
  num 477 nentries (· = 2)
  num 479 (fun f => blocks f .read) (· = 6)
  num 480 presentBlocks (· = 6)
  mark_ 3 5 .absent
  stateIs 527 0 .absent
  stateIs 528 1 .read
  stateIs 529 2 .read
  stateIs 530 3 .absent
  stateIs 531 4 .absent
  stateIs 532 5 .absent
  stateIs 533 6 .absent
  stateIs 534 7 .absent
  stateIs 535 8 .read
  stateIs 536 9 .read
  stateIs 537 10 .absent
  num 539 nentries (· = 2)
  num 541 (fun f => blocks f .read) (· = 4)
  num 542 presentBlocks (· = 4)
  fsck_) = true := by decide +kernel

/-- tests/cache/blocklist.cpp 457: Unmark base cases. Case 4: end overlaps, start does not -/
example : passes fresh (do
  mark_ 1 3 .read
  mark_ 7 3 .read
  stateIs 465 0 .absent
  stateIs 466 1 .read
  stateIs 467 2 .read
  stateIs 468 3 .read
  stateIs 469 4 .absent
  stateIs 470 5 .absent
  stateIs 471 6 .absent
  stateIs 472 7 .read
  stateIs 473 8 .read
  stateIs 474 9 .read
  stateIs 475 10 .absent
  num 477 nentries (· = 2)
  num 479 (fun f => blocks f .read) (· = 6)
  num 480 presentBlocks (· = 6)
  mark_ 4 4 .absent
  stateIs 548 0 .absent
  stateIs 549 1 .read
  stateIs 550 2 .read
  stateIs 551 3 .read
  stateIs 552 4 .absent
  stateIs 553 5 .absent
  stateIs 554 6 .absent
  stateIs 555 7 .absent
  stateIs 556 8 .read
  stateIs 557 9 .read
  stateIs 558 10 .absent
  num 560 nentries (· = 2)
  num 562 (fun f => blocks f .read) (· = 5)
  num 563 presentBlocks (· = 5)
  fsck_) = true := by decide +kernel

/-- tests/cache/blocklist.cpp 457: Unmark base cases. Case 5: fully covered by existing range -/
example : passes fresh (do
  mark_ 1 3 .read
  mark_ 7 3 .read
  stateIs 465 0 .absent
  stateIs 466 1 .read
  stateIs 467 2 .read
  stateIs 468 3 .read
  stateIs 469 4 .absent
  stateIs 470 5 .absent
  stateIs 471 6 .absent
  stateIs 472 7 .read
  stateIs 473 8 .read
  stateIs 474 9 .read
  stateIs 475 10 .absent
  num 477 nentries (· = 2)
  num 479 (fun f => blocks f .read) (· = 6)
  num 480 presentBlocks (· = 6)
  mark_ 2 1 .absent
  stateIs 569 0 .absent
  stateIs 570 1 .read
  stateIs 571 2 .absent
  stateIs 572 3 .read
  stateIs 573 4 .absent
  stateIs 574 5 .absent
  stateIs 575 6 .absent
  stateIs 576 7 .read
  stateIs 577 8 .read
  stateIs 578 9 .read
  stateIs 579 10 .absent
  num 581 nentries (· = 3)
  num 583 (fun f => blocks f .read) (· = 5)
  num 584 presentBlocks (· = 5)
  fsck_) = true := by decide +kernel

/-- tests/cache/blocklist.cpp 588: Mark edge cases. Exactly matching range -/
example : passes fresh (do
  mark_ 1 3 .read
  mark_ 7 3 .read
  stateIs 596 0 .absent
  stateIs 597 1 .read
  stateIs 598 2 .read
  stateIs 599 3 .read
  stateIs 600 4 .absent
  stateIs 601 5 .absent
  stateIs 602 6 .absent
  stateIs 603 7 .read
  stateIs 604 8 .read
  stateIs 605 9 .read
  stateIs 606 10 .absent
  num 608 nentries (· = 2)
  mark_ 1 3 .readahead
  stateIs 613 0 .absent
  stateIs 614 1 .readahead
  stateIs 615 2 .readahead
  stateIs 616 3 .readahead
  stateIs 617 4 .absent
  stateIs 618 5 .absent
  stateIs 619 6 .absent
  stateIs 620 7 .read
  stateIs 621 8 .read
  stateIs 622 9 .read
  stateIs 623 10 .absent
  num 625 nentries (· = 2)
  fsck_) = true := by decide +kernel

/-- tests/cache/blocklist.cpp 588: Mark edge cases. Overriding range -/
example : passes fresh (do
  mark_ 1 3 .read
  mark_ 7 3 .read
  stateIs 596 0 .absent
  stateIs 597 1 .read
  stateIs 598 2 .read
  stateIs 599 3 .read
  stateIs 600 4 .absent
  stateIs 601 5 .absent
  stateIs 602 6 .absent
  stateIs 603 7 .read
  stateIs 604 8 .read
  stateIs 605 9 .read
  stateIs 606 10 .absent
  num 608 nentries (· = 2)
  mark_ 6 5 .readahead
  stateIs 631 0 .absent
  stateIs 632 1 .read
  stateIs 633 2 .read
  stateIs 634 3 .read
  stateIs 635 4 .absent
  stateIs 636 5 .absent
  stateIs 637 6 .readahead
  stateIs 638 7 .readahead
  stateIs 639 8 .readahead
  stateIs 640 9 .readahead
  stateIs 641 10 .readahead
  stateIs 642 11 .absent
  num 644 nentries (· = 2)
  fsck_) = true := by decide +kernel

/-- tests/cache/blocklist.cpp 588: Mark edge cases. Covering multiple existing ranges -/
example : passes fresh (do
  mark_ 1 3 .read
  mark_ 7 3 .read
  stateIs 596 0 .absent
  stateIs 597 1 .read
  stateIs 598 2 .read
  stateIs 599 3 .read
  stateIs 600 4 .absent
  stateIs 601 5 .absent
  stateIs 602 6 .absent
  stateIs 603 7 .read
  stateIs 604 8 .read
  stateIs 605 9 .read
  stateIs 606 10 .absent
  num 608 nentries (· = 2)
  mark_ 0 11 .readahead
  stateIs 650 0 .readahead
  stateIs 651 1 .readahead
  stateIs 652 2 .readahead
  stateIs 653 3 .readahead
  stateIs 654 4 .readahead
  stateIs 655 5 .readahead
  stateIs 656 6 .readahead
  stateIs 657 7 .readahead
  stateIs 658 8 .readahead
  stateIs 659 9 .readahead
  stateIs 660 10 .readahead
  stateIs 661 11 .absent
  num 663 nentries (· = 1)
  fsck_) = true := by decide +kernel

/-- tests/cache/blocklist.cpp 667: Unmark edge cases. Exactly matching range -/
example : passes fresh (do
  mark_ 1 3 .read
  mark_ 7 3 .read
  stateIs 675 0 .absent
  stateIs 676 1 .read
  stateIs 677 2 .read
  stateIs 678 3 .read
  stateIs 679 4 .absent
  stateIs 680 5 .absent
  stateIs 681 6 .absent
  stateIs 682 7 .read
  stateIs 683 8 .read
  stateIs 684 9 .read
  stateIs 685 10 .absent
  num 687 nentries (· = 2)
  mark_ 1 3 .absent
  stateIs 692 0 .absent
  stateIs 693 1 .absent
  stateIs 694 2 .absent
  stateIs 695 3 .absent
  stateIs 696 4 .absent
  stateIs 697 5 .absent
  stateIs 698 6 .absent
  stateIs 699 7 .read
  stateIs 700 8 .read
  stateIs 701 9 .read
  stateIs 702 10 .absent
  num 704 nentries (· = 1)
  fsck_) = true := by decide +kernel

/-- tests/cache/blocklist.cpp 667: Unmark edge cases. Overriding range -/
example : passes fresh (do
  mark_ 1 3 .read
  mark_ 7 3 .read
  stateIs 675 0 .absent
  stateIs 676 1 .read
  stateIs 677 2 .read
  stateIs 678 3 .read
  stateIs 679 4 .absent
  stateIs 680 5 .absent
  stateIs 681 6 .absent
  stateIs 682 7 .read
  stateIs 683 8 .read
  stateIs 684 9 .read
  stateIs 685 10 .absent
  num 687 nentries (· = 2)
  mark_ 6 5 .absent
  stateIs 710 0 .absent
  stateIs 711 1 .read
  stateIs 712 2 .read
  stateIs 713 3 .read
  stateIs 714 4 .absent
  stateIs 715 5 .absent
  stateIs 716 6 .absent
  stateIs 717 7 .absent
  stateIs 718 8 .absent
  stateIs 719 9 .absent
  stateIs 720 10 .absent
  stateIs 721 11 .absent
  num 723 nentries (· = 1)
  fsck_) = true := by decide +kernel

/-- tests/cache/blocklist.cpp 667: Unmark edge cases. Covering multiple existing ranges -/
example : passes fresh (do
  mark_ 1 3 .read
  mark_ 7 3 .read
  stateIs 675 0 .absent
  stateIs 676 1 .read
  stateIs 677 2 .read
  stateIs 678 3 .read
  stateIs 679 4 .absent
  stateIs 680 5 .absent
  stateIs 681 6 .absent
  stateIs 682 7 .read
  stateIs 683 8 .read
  stateIs 684 9 .read
  stateIs 685 10 .absent
  num 687 nentries (· = 2)
  mark_ 0 11 .absent
  stateIs 729 0 .absent
  stateIs 730 1 .absent
  stateIs 731 2 .absent
  stateIs 732 3 .absent
  stateIs 733 4 .absent
  stateIs 734 5 .absent
  stateIs 735 6 .absent
  stateIs 736 7 .absent
  stateIs 737 8 .absent
  stateIs 738 9 .absent
  stateIs 739 10 .absent
  stateIs 740 11 .absent
  num 742 nentries (· = 0)
  fsck_) = true := by decide +kernel

/-- tests/cache/blocklist.cpp 746: Reload Blocklist from file -/
example : passes fresh (do
  reopen
  mark_ 1 3 .read
  mark_ 7 3 .readahead
  stateIs 757 0 .absent
  stateIs 758 1 .read
  stateIs 759 2 .read
  stateIs 760 3 .read
  stateIs 761 4 .absent
  stateIs 762 5 .absent
  stateIs 763 6 .absent
  stateIs 764 7 .readahead
  stateIs 765 8 .readahead
  stateIs 766 9 .readahead
  stateIs 767 10 .absent
  num 769 nentries (· = 2)
  num 771 (fun f => blocks f .readahead) (· = 3)
  num 772 (fun f => blocks f .read) (· = 3)
  num 773 presentBlocks (· = 6)
  reopen
  stateIs 779 0 .absent
  stateIs 780 1 .read
  stateIs 781 2 .read
  stateIs 782 3 .read
  stateIs 783 4 .absent
  stateIs 784 5 .absent
  stateIs 785 6 .absent
  stateIs 786 7 .readahead
  stateIs 787 8 .readahead
  stateIs 788 9 .readahead
  stateIs 789 10 .absent
  num 791 nentries (· = 2)
  num 793 (fun f => blocks f .readahead) (· = 3)
  num 794 (fun f => blocks f .read) (· = 3)
  num 795 presentBlocks (· = 6)) = true := by decide +kernel

/-- tests/cache/blocklist.cpp 799: Truncation of access attempts. A fully absent blocklist. Truncating the access for an absent block. truncate_access returns zero length -/
example : passes fresh (do
  truncIs 807 (4096-1) 456 0
  fsck_) = true := by decide +kernel

/-- tests/cache/blocklist.cpp 799: Truncation of access attempts. A blocklist with a single present block. Truncating access for an absent block. truncate_access returns zero length -/
example : passes fresh (do
  mark_ 1 1 .read
  truncIs 817 (4096-1) 456 0
  truncIs 818 (4096 * 2) 456 0
  fsck_) = true := by decide +kernel

/-- tests/cache/blocklist.cpp 799: Truncation of access attempts. A blocklist with a single present block. Truncating access starting at the block start and equal to block size. The original length is returned -/
example : passes fresh (do
  mark_ 1 1 .read
  truncIs 824 4096 4096 4096
  fsck_) = true := by decide +kernel

/-- tests/cache/blocklist.cpp 799: Truncation of access attempts. A blocklist with a single present block. Truncating access starting at the block start and with a length less than block size. The original length is returned -/
example : passes fresh (do
  mark_ 1 1 .read
  truncIs 833 4096 (4096 - 1) (4096 - 1)
  truncIs 837 4096 (4096 / 2) (4096 / 2)
  fsck_) = true := by decide +kernel

/-- tests/cache/blocklist.cpp 799: Truncation of access attempts. A blocklist with a single present block. Truncating access starting at the block start and with a length larger than block size. The size is truncated to block size -/
example : passes fresh (do
  mark_ 1 1 .read
  truncIs 846 4096 (4096 + 1) 4096
  truncIs 850 4096 (4096  *  2) 4096
  fsck_) = true := by decide +kernel

/-- tests/cache/blocklist.cpp 799: Truncation of access attempts. A blocklist with a sequence of equal-state present blocks. Truncating access for an absent block. truncate_access returns zero length -/
example : passes fresh (do
  mark_ 1 3 .read
  truncIs 863 (4096-1) 456 0
  truncIs 864 (4096 * 5) 456 0
  fsck_) = true := by decide +kernel

/-- tests/cache/blocklist.cpp 799: Truncation of access attempts. A blocklist with a sequence of equal-state present blocks. Truncating access starting at the block start and equal to block size. The original length is returned -/
example : passes fresh (do
  mark_ 1 3 .read
  truncIs 870 4096 4096 4096
  fsck_) = true := by decide +kernel

/-- tests/cache/blocklist.cpp 799: Truncation of access attempts. A blocklist with a sequence of equal-state present blocks. Truncating access starting at the block start and with a length less than block size. The original length is returned -/
example : passes fresh (do
  mark_ 1 3 .read
  truncIs 879 4096 (4096 - 1) (4096 - 1)
  truncIs 883 4096 (4096 / 2) (4096 / 2)
  fsck_) = true := by decide +kernel

/-- tests/cache/blocklist.cpp 799: Truncation of access attempts. A blocklist with a sequence of equal-state present blocks. Truncating access starting at the block start and with a length larger than block size but smaller than range length. The original size is returned -/
example : passes fresh (do
  mark_ 1 3 .read
  truncIs 892 4096 (4096 + 1) (4096+1)
  truncIs 896 4096 (4096  *  3) (4096 * 3)
  fsck_) = true := by decide +kernel

/-- tests/cache/blocklist.cpp 799: Truncation of access attempts. A blocklist with a sequence of equal-state present blocks. Truncating access starting at the block start and with a length larger than range length. The size is truncated to the end of range -/
example : passes fresh (do
  mark_ 1 3 .read
  truncIs 905 4096 (4096 * 3+1) (4096 * 3)
  truncIs 909 4096 (4096  *  4) (4096 * 3)
  fsck_) = true := by decide +kernel

/-- tests/cache/blocklist.cpp 799: Truncation of access attempts. A blocklist with a sequence of non-equal-state present blocks. Truncating access for an absent block. truncate_access returns zero length -/
example : passes fresh (do
  mark_ 1 1 .read
  mark_ 2 1 .readahead
  mark_ 3 1 .pinned
  mark_ 5 1 .written
  truncIs 925 (4096-1) 456 0
  truncIs 926 (4096 * 6) 456 0
  fsck_) = true := by decide +kernel

/-- tests/cache/blocklist.cpp 799: Truncation of access attempts. A blocklist with a sequence of non-equal-state present blocks. Truncating access starting at the block start and equal to block size. The original length is returned -/
example : passes fresh (do
  mark_ 1 1 .read
  mark_ 2 1 .readahead
  mark_ 3 1 .pinned
  mark_ 5 1 .written
  truncIs 932 4096 4096 4096
  fsck_) = true := by decide +kernel

/-- tests/cache/blocklist.cpp 799: Truncation of access attempts. A blocklist with a sequence of non-equal-state present blocks. Truncating access starting at the block start and with a length less than block size. The original length is returned -/
example : passes fresh (do
  mark_ 1 1 .read
  mark_ 2 1 .readahead
  mark_ 3 1 .pinned
  mark_ 5 1 .written
  truncIs 941 4096 (4096 - 1) (4096 - 1)
  truncIs 945 4096 (4096 / 2) (4096 / 2)
  fsck_) = true := by decide +kernel

/-- tests/cache/blocklist.cpp 799: Truncation of access attempts. A blocklist with a sequence of non-equal-state present blocks. Truncating access starting at the block start and with a length larger than block size but smaller than range length. The original size is returned -/
example : passes fresh (do
  mark_ 1 1 .read
  mark_ 2 1 .readahead
  mark_ 3 1 .pinned
  mark_ 5 1 .written
  truncIs 954 4096 (4096 + 1) (4096+1)
  truncIs 958 4096 (4096  *  3) (4096 * 3)
  fsck_) = true := by decide +kernel

/-- tests/cache/blocklist.cpp 799: Truncation of access attempts. A blocklist with a sequence of non-equal-state present blocks. Truncating access starting at the block start and with a length larger than range length. The size is truncated to the end of range -/
example : passes fresh (do
  mark_ 1 1 .read
  mark_ 2 1 .readahead
  mark_ 3 1 .pinned
  mark_ 5 1 .written
  truncIs 967 4096 (4096 * 3+1) (4096 * 3)
  truncIs 971 4096 (4096  *  4) (4096 * 3)
  fsck_) = true := by decide +kernel

/-- tests/cache/blocklist.cpp 981: Split ranges exceeding limits into multiple ranges -/
example : passes fresh (do
  mark_ 0 ((1<<<18) - 15) .read
  stateIs 988 (1<<<16) .read
  stateIs 989 (1<<<17) .read
  stateIs 990 ((1<<<17) + (1<<<16)) .read
  stateIs 991 ((1<<<18) - 16) .read
  num 993 nentries (· = 4)
  num 994 (fun f => blocks f .read) (· = ((1<<<18) - 15))
  fsck_) = true := by decide +kernel

/-- tests/cache/blocklist.cpp 997: Mark several ranges as absent with overlapping range -/
example : passes fresh (do
  mark_ 0 1 .read
  mark_ 2 1 .read
  mark_ 4 1 .read
  mark_ 6 1 .read
  num 1008 nentries (· = 4)
  mark_ 0 7 .absent
  num 1012 nentries (· = 0)
  fsck_) = true := by decide +kernel

/-- tests/cache/blocklist.cpp 1015: Change state of several ranges in single overlapping range -/
example : passes fresh (do
  mark_ 0 1 .read
  mark_ 2 1 .read
  mark_ 4 1 .read
  mark_ 6 1 .read
  num 1026 nentries (· = 4)
  mark_ 0 7 .readahead
  num 1030 nentries (· = 1)
  forBelow 7 fun i => do
    stateIs 1033 i .readahead
  stateIs 1035 7 .absent
  fsck_) = true := by decide +kernel

end Dragonstash.Conform

/-
Vocabulary for C122: the leaves of several processes and their tags.
-/
import Verif.Model.MpiTag
import Verif.Spec.Update
import Verif.Spec.MpiGhost

namespace Samurai

/-- The leaves `cells r` of `size` processes make up one mesh: no leaf lies in another one, of the same process or not. The subdomain of a process is the region of its leaves, seen from the level `maxL`. -/
structure MpiLeaves (n size maxL : Nat) (ref cells : Nat → CA) (sub : Nat → LCA) : Prop where
  wf : ∀ r < size, (cells r).WF n
  leveled : ∀ r < size, (cells r).Leveled
  room : ∀ r < size, maxL ≤ (cells r).maxSize
  top : ∀ r < size, ∀ l p, (cells r).Mem n l p → l ≤ maxL
  inRef : ∀ r < size, ∀ l p, (cells r).Mem n l p → (ref r).minLevel ≤ l
  numbers : ∀ r < size, (ref r).NumbersDiffer n
  sameNumbers : ∀ r < size, ∀ e ∈ (cells r).numbered n, e ∈ (ref r).numbered n
  apart : ∀ r < size, ∀ r' < size, ∀ l p l' p', (cells r).Mem n l p → (cells r').Mem n l' p' → l ≤ l' → Anc (l' - l) p p' → r = r' ∧ l = l' ∧ p = p'
  subWF : ∀ r < size, (sub r).WF n
  subLevel : ∀ r < size, (sub r).level = maxL
  region : ∀ r < size, ∀ m, (sub r).Mem n m ↔ (cells r).Tiles n maxL m
  range : ∃ D : Int, 0 ≤ D ∧ D + 2 * 2 ^ maxL + 2 < INT_MAX ∧ ∀ r < size, (cells r).Below n maxL D ∧ (sub r).BelowAt n maxL D

/-- The tags `tag r` of the processes are those of one field `t`: a process has the tags of its leaves and of their siblings that are leaves of other processes. Each leaf asks for something. A leaf above `minL` asks to be coarsened only
together with all its siblings, no leaf of level `minL` asks for it, and no leaf has the flags `refine` and `coarsen` without `keep`. -/
structure MpiTags (n size minL : Nat) (cells : Nat → CA) (t : TagField) (tag : Nat → TagField) : Prop where
  same : ∀ r < size, ∀ r' < size, ∀ l p q s, (cells r).Mem n l p → (cells r').Mem n l q → Anc 1 s p → Anc 1 s q → tag r l q = t l q
  asks : ∀ r < size, ∀ l p, (cells r).Mem n l p → AsksRefine (t l p) ∨ AsksKeep (t l p) ∨ AsksCoarsen (t l p)
  siblings : ∀ r < size, ∀ l p q s, (cells r).Mem n l p → AsksCoarsen (t l p) → Anc 1 s p → Anc 1 s q → ∃ r' < size, (cells r').Mem n l q ∧ AsksCoarsen (t l q)
  bottom : ∀ r < size, ∀ l p, (cells r).Mem n l p → AsksCoarsen (t l p) → minL < l
  refine : ∀ r < size, ∀ l p, (cells r).Mem n l p → AsksRefine (t l p) → t l p &&& 2#32 ≠ 0#32 → t l p &&& 1#32 ≠ 0#32

end Samurai

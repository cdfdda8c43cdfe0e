import Verif.Spec.Petsc
import Verif.Lemmas.GhostMap
import Verif.Lemmas.BcPass
import Verif.Lemmas.GhostRow
import Verif.Lemmas.UpdateIntegral

/-! The relations of the ghosts, before the substitutions. -/

namespace Samurai

section
variable {K : Type} [Field K]

/-- A mesh for the elimination of the ghosts. -/
structure ElimMesh (n order : Nat) (cells cag ref : CA) (dom : LCA) (minL maxL w : Nat) : Prop where
  fv : FVMesh n cells ref dom minL maxL w
  distinct : ((ref.numbered n).map fun e => e.2.2).Nodup
  wide : 1 ≤ w
  cagWF : cag.WF n
  cagLeveled : cag.Leveled
  cagSize : maxL ≤ cag.maxSize
  cag_iff : ∀ l p, cag.Mem n l p ↔ ∃ q, cells.Mem n l q ∧ Near w p q
  below : ∀ l p q, PredGhost n cells cag l p → Near order q (parentOf p) → ref.Mem n (l - 1) q

/-! ### numbers -/

theorem num_eq {n : Nat} {ref : CA} {l : Nat} (hw : (ref.lca l).WF n) {yz : List Int} {x v : Int} (h : Num n (ref.lca l) yz x v) : v = numOf n ref l (yz ++ [x]) := by
  have := num_get hw h
  unfold numOf
  simp [this]

theorem index_numOf {n : Nat} {ref : CA} (hw : ref.WF n) {l : Nat} {yz : List Int} {x : Int} (h : ref.Mem n l (yz ++ [x])) :
    getIndex (ref.lca l) n yz x = some (numOf n ref l (yz ++ [x])) :=
  num_get (hw l h.1) (numOf_num (hw l h.1) h.2)

theorem numOf_shift {n : Nat} {ref : CA} (hw : ref.WF n) {l : Nat} {yz : List Int} {a b : Int} (hab : a ≤ b)
    (h : ∀ x, a ≤ x → x ≤ b → ref.Mem n l (yz ++ [x])) : numOf n ref l (yz ++ [b]) = numOf n ref l (yz ++ [a]) + (b - a) := by
  have ha := h a le_rfl hab
  have := num_shift (hw l ha.1) (numOf_num (hw l ha.1) ha.2) (b := b) (fun x hx => (h x (by omega) (by omega)).2)
  exact (num_eq (hw l ha.1) this).symm

theorem mapM_option {α β : Type} {f : α → Option β} {g : α → β} : ∀ {l : List α}, (∀ a ∈ l, f a = some (g a)) → l.mapM f = some (l.map g)
  | [], _ => rfl
  | a :: l, h => by
    rw [List.mapM_cons, h a List.mem_cons_self, mapM_option fun b hb => h b (List.mem_cons_of_mem _ hb)]
    rfl

/-- The combination `e` is `cc`: cells of the mesh, replaced by their numbers. -/
def CellComb (n : Nat) (ref : CA) (e : LinComb K) (cc : List ((Nat × List Int) × K)) : Prop :=
  (∀ x ∈ cc, ref.Mem n x.1.1 x.1.2) ∧ e.Perm (cc.map fun x => (numOf n ref x.1.1 x.1.2, x.2))

/-- The children of a cell. -/
def projCells (K : Type) [Field K] (n l : Nat) (p : List Int) : List ((Nat × List Int) × K) := (childrenOf p).map fun c => ((l + 1, c), 1 / 2 ^ (n + 1))

theorem children_snoc (yz : List Int) (x : Int) : ((childrenOf yz).flatMap fun r => [r ++ [2 * x], r ++ [2 * x + 1]]).Perm (childrenOf (yz ++ [x])) := by
  rw [List.perm_ext_iff_of_nodup]
  · intro q
    simp only [List.mem_flatMap, List.mem_cons, List.not_mem_nil, or_false, mem_children]
    constructor
    · rintro ⟨r, rfl, rfl | rfl⟩
      · unfold parentOf
        rw [List.map_append]
        congr 1
        simp [shr_one_eq]
      · unfold parentOf
        rw [List.map_append]
        congr 1
        simp [shr_one_eq]
        omega
    · intro h
      have hl : q.length = yz.length + 1 := by
        have := congrArg List.length h
        simpa [parentOf] using this
      obtain ⟨r, y, rfl, hr⟩ := exists_snoc hl
      unfold parentOf at h
      rw [List.map_append] at h
      obtain ⟨h1, h2⟩ := snoc_inj (x := shr y 1) (y := x) (by simpa using h)
      refine ⟨r, h1, ?_⟩
      rw [shr_one_eq] at h2
      have : y = 2 * x ∨ y = 2 * x + 1 := by omega
      rcases this with rfl | rfl <;> simp
  · rw [List.nodup_flatMap]
    refine ⟨fun r _ => by simp, ?_⟩
    refine (childrenOf_nodup yz).imp fun {a b} hab => ?_
    intro q h1 h2
    simp only [List.mem_cons, List.not_mem_nil, or_false] at h1 h2
    refine hab ?_
    rcases h1 with rfl | rfl <;> rcases h2 with h2 | h2 <;> exact (snoc_inj h2).1
  · exact childrenOf_nodup _

theorem projectionRow_spec {n : Nat} {ref : CA} {level : Nat} {c : Call} (hw : ref.WF n) (hlt : c.2.start < c.2.stop)
    (hA : ∀ x ∈ c.2, ref.Mem n level (c.1 ++ [x])) (hB : ∀ x ∈ c.2, ∀ d, parentOf d = c.1 ++ [x] → ref.Mem n (level + 1) d) :
    ∃ es : List (Int × LinComb K), projectionRow n ref level c = some es ∧
      List.Forall₂ (fun p (e : Int × LinComb K) => e.1 = numOf n ref level p ∧ CellComb n ref e.2 (projCells K n level p)) ((coords1 c.2).map fun x => c.1 ++ [x]) es := by
  have hs : c.2.start ∈ c.2 := Interval.mem_def.2 ⟨le_rfl, hlt⟩
  have hch : ∀ x ∈ c.2, ∀ r ∈ childrenOf c.1, ∀ y, y = 2 * x ∨ y = 2 * x + 1 → ref.Mem n (level + 1) (r ++ [y]) := by
    intro x hx r hr y hy
    refine hB x hx _ (mem_children.1 ((children_snoc c.1 x).subset (List.mem_flatMap.2 ⟨r, hr, ?_⟩)))
    rcases hy with rfl | rfl <;> simp
  have hm := mapM_option (f := fun r => getIndex (ref.lca (level + 1)) n r (2 * c.2.start)) (g := fun r => numOf n ref (level + 1) (r ++ [2 * c.2.start]))
    (l := childrenOf c.1) (fun r hr => index_numOf hw (hch _ hs r hr _ (.inl rfl)))
  refine ⟨_, by unfold projectionRow; rw [index_numOf hw (hA _ hs), hm], ?_⟩
  rw [rowCells_eq]
  apply forall₂_range
  intro i hi
  have hi' : c.2.start + (i : Int) ∈ c.2 := by
    refine Interval.mem_def.2 ⟨by omega, ?_⟩
    unfold Interval.size at hi
    omega
  have hin : ∀ x, c.2.start ≤ x → x ≤ c.2.start + (i : Int) → x ∈ c.2 := by
    intro x h1 h2
    have := Interval.mem_def.1 hi'
    exact Interval.mem_def.2 ⟨h1, by omega⟩
  refine ⟨?_, ?_, ?_⟩
  · simp only []
    rw [numOf_shift hw (a := c.2.start) (b := c.2.start + (i : Int)) (by omega) (fun x h1 h2 => hA x (hin x h1 h2))]
    omega
  · intro x hx
    obtain ⟨d, hd, rfl⟩ := List.mem_map.1 hx
    exact hB _ hi' d (mem_children.1 hd)
  · simp only []
    have hp := ((children_snoc c.1 (c.2.start + (i : Int))).map fun d => ((((level + 1, d) : Nat × List Int), (1 / 2 ^ (n + 1) : K)))).map
      fun x => (numOf n ref x.1.1 x.1.2, x.2)
    refine List.Perm.trans (List.Perm.of_eq ?_) hp
    rw [List.flatMap_map, List.map_map, List.map_flatMap]
    apply List.flatMap_congr
    intro r hr
    have key : ∀ y, 2 * c.2.start ≤ y → y ≤ 2 * (c.2.start + (i : Int)) + 1 → ref.Mem n (level + 1) (r ++ [y]) := by
      intro y h1 h2
      refine hch (y / 2) (hin _ (by omega) (by omega)) r hr y (by omega)
    have k1 := numOf_shift hw (a := 2 * c.2.start) (b := 2 * (c.2.start + (i : Int))) (by omega) (fun x h1 h2 => key x h1 (by omega))
    have k2 := numOf_shift hw (a := 2 * c.2.start) (b := 2 * (c.2.start + (i : Int)) + 1) (by omega) (fun x h1 h2 => key x h1 (by omega))
    simp only [List.map_cons, List.map_nil, Function.comp]
    rw [k1, k2, show 2 * (c.2.start + (i : Int)) - 2 * c.2.start = 2 * (i : Int) by omega,
      show 2 * (c.2.start + (i : Int)) + 1 - 2 * c.2.start = 2 * (i : Int) + 1 by omega, add_assoc]

/-! ### the prediction -/

theorem nestedIndices_nodup (k : Nat) : ∀ m, (nestedIndices k m).Nodup
  | 0 => by simp [nestedIndices]
  | m + 1 => by
    unfold nestedIndices
    rw [List.nodup_flatMap]
    refine ⟨fun i _ => (nestedIndices_nodup k m).map fun a b h => (List.cons.inj h).2, ?_⟩
    refine List.nodup_range.imp fun {a b} hab => ?_
    intro q h1 h2
    obtain ⟨x, -, rfl⟩ := List.mem_map.1 h1
    obtain ⟨y, -, h⟩ := List.mem_map.1 h2
    have := (List.cons.inj h).1
    omega

theorem offsetsFrom_nodup (n : Nat) (lo : Int) (k : Nat) : (offsetsFrom n lo k).Nodup := by
  unfold offsetsFrom
  refine List.Nodup.map_on (fun st h1 st' h2 h => ?_) (nestedIndices_nodup k _)
  have l1 := (mem_nestedIndices.1 h1).1
  have l2 := (mem_nestedIndices.1 h2).1
  rw [← ofPt_toPt l1, ← ofPt_toPt l2]
  refine ofPt_congr fun d hd => ?_
  have := congrFun h d
  simp only [if_pos (show d ≤ n by omega)] at this
  unfold toPt
  omega

theorem perm_head_filter {α : Type} [DecidableEq α] {l : List α} (h : l.Nodup) {a : α} (ha : a ∈ l) {P : α → Bool} (hP : ∀ b ∈ l, P b = true ↔ b ≠ a) :
    (a :: l.filter P).Perm l := by
  rw [List.perm_ext_iff_of_nodup]
  · intro b
    rw [List.mem_cons, List.mem_filter]
    constructor
    · rintro (rfl | h')
      · exact ha
      · exact h'.1
    · intro hb
      by_cases e : b = a
      · exact .inl e
      · exact .inr ⟨hb, (hP b hb).2 e⟩
  · rw [List.nodup_cons]
    exact ⟨fun h' => ((hP a ha).1 (List.mem_filter.1 h').2) rfl, h.filter _⟩
  · exact h

/-- The neighbours of the parent of a cell. -/
def predCells (K : Type) [Field K] (n order l : Nat) (p : List Int) : List ((Nat × List Int) × K) :=
  (offsetsFrom n (-(order : Int)) (2 * order + 1)).map fun s => ((l - 1, ofPt (n + 1) fun d => parentPt (toPt p) d + s d), interpProduct n order (toPt p) s)

theorem interp_middle {order : Nat} (ho : order ≤ 5) (b : K) : (interpCoeffs order b).getD order 0 = 1 := by
  have : order = 0 ∨ order = 1 ∨ order = 2 ∨ order = 3 ∨ order = 4 ∨ order = 5 := by omega
  rcases this with rfl | rfl | rfl | rfl | rfl | rfl <;> rfl

theorem interpProduct_zero {n order : Nat} (ho : order ≤ 5) (q : Pt) : (interpProduct n order q fun _ => 0 : K) = 1 := by
  unfold interpProduct
  apply List.prod_eq_one
  intro x hx
  obtain ⟨d, -, rfl⟩ := List.mem_map.1 hx
  have : ((0 : Int) + (order : Int)).toNat = order := by omega
  rw [this]
  exact interp_middle ho _

theorem indexPt_numOf {n : Nat} {ref : CA} (hw : ref.WF n) {l : Nat} {q : Pt} (h : ref.Mem n l (ofPt (n + 1) q)) :
    getIndexPt n ref l q = some (numOf n ref l (ofPt (n + 1) q)) := by
  unfold getIndexPt
  have := ofPt_snoc n q
  rw [this] at h
  rw [index_numOf hw h, ← this]

theorem near_offset {n order : Nat} {p : List Int} (hp : p.length = n + 1) {s : Nat → Int} (hs : s ∈ offsetsFrom n (-(order : Int)) (2 * order + 1)) :
    Near order (ofPt (n + 1) fun d => parentPt (toPt p) d + s d) (parentOf p) := by
  have h := (mem_offsetsFrom.1 hs).1
  rw [near_iff_toPt (ofPt_length _ _) (show (parentOf p).length = n + 1 by unfold parentOf; simpa using hp)]
  intro d hd
  rw [toPt_ofPt _ (by omega)]
  have h1 : toPt (parentOf p) d = parentPt (toPt p) d := toPt_map _ (by omega)
  rw [h1]
  have := h d hd
  push_cast at this
  constructor <;> omega

theorem predictionComb_spec {n order : Nat} (ho : order ≤ 5) {ref : CA} (hw : ref.WF n) {l : Nat} {p : List Int} (hp : p.length = n + 1)
    (hB : ∀ q, Near order q (parentOf p) → ref.Mem n (l - 1) q) :
    ∃ e : LinComb K, predictionComb n order ref l (toPt p) = some e ∧ CellComb n ref e (predCells K n order l p) := by
  classical
  have hmem : ∀ s ∈ offsetsFrom n (-(order : Int)) (2 * order + 1), ref.Mem n (l - 1) (ofPt (n + 1) fun d => parentPt (toPt p) d + s d) :=
    fun s hs => hB _ (near_offset hp hs)
  have h0 : (fun _ => 0) ∈ offsetsFrom n (-(order : Int)) (2 * order + 1) := mem_offsetsFrom.2 ⟨fun d _ => by push_cast; omega, fun _ _ => rfl⟩
  have hm0 := hmem _ h0
  simp only [add_zero] at hm0
  have hm := mapM_option (f := fun s : Nat → Int => (getIndexPt n ref (l - 1) fun d => parentPt (toPt p) d + s d).map fun k => (k, (interpProduct n order (toPt p) s : K)))
    (g := fun s => (numOf n ref (l - 1) (ofPt (n + 1) fun d => parentPt (toPt p) d + s d), (interpProduct n order (toPt p) s : K)))
    (l := (offsetsFrom n (-(order : Int)) (2 * order + 1)).filter fun s => !(List.range (n + 1)).all fun d => s d == 0)
    (fun s hs => by rw [indexPt_numOf hw (hmem s (List.mem_filter.1 hs).1)]; rfl)
  refine ⟨_, by unfold predictionComb; rw [indexPt_numOf hw (q := parentPt (toPt p)) hm0, hm], ?_, ?_⟩
  · intro x hx
    obtain ⟨s, hs, rfl⟩ := List.mem_map.1 hx
    exact hmem s hs
  · have hperm := perm_head_filter (offsetsFrom_nodup n (-(order : Int)) (2 * order + 1)) h0
      (P := fun s => !(List.range (n + 1)).all fun d => s d == 0) (fun s hs => by
        rw [Bool.not_eq_true', Bool.eq_false_iff]
        constructor
        · rintro h rfl
          refine h ?_
          rw [all_range]
          simp
        · intro h h'
          refine h (funext fun d => ?_)
          rw [all_range] at h'
          by_cases hd : d ≤ n
          · simpa using h' d (by omega)
          · exact (mem_offsetsFrom.1 hs).2 d (by omega))
    have := (hperm.map fun s => (((l - 1, ofPt (n + 1) fun d => parentPt (toPt p) d + s d) : Nat × List Int), (interpProduct n order (toPt p) s : K))).map
      fun x => (numOf n ref x.1.1 x.1.2, x.2)
    refine List.Perm.trans (List.Perm.of_eq ?_) this
    rw [List.map_cons, List.map_cons, interpProduct_zero ho, List.map_map]
    simp only [add_zero]
    rfl

theorem predictionRow_spec {n order : Nat} (ho : order ≤ 5) {ref : CA} {level : Nat} {c : Call} (hw : ref.WF n) (hlt : c.2.start < c.2.stop) (hc : c.1.length = n)
    (hA : ∀ x ∈ c.2, ref.Mem n level (c.1 ++ [x])) (hB : ∀ x ∈ c.2, ∀ q, Near order q (parentOf (c.1 ++ [x])) → ref.Mem n (level - 1) q) :
    ∃ es : List (Int × LinComb K), predictionRow n order ref level c = some es ∧
      List.Forall₂ (fun p (e : Int × LinComb K) => e.1 = numOf n ref level p ∧ CellComb n ref e.2 (predCells K n order level p)) ((coords1 c.2).map fun x => c.1 ++ [x]) es := by
  have hs : c.2.start ∈ c.2 := Interval.mem_def.2 ⟨le_rfl, hlt⟩
  have hin : ∀ i < c.2.size, c.2.start + (i : Int) ∈ c.2 := by
    intro i hi
    refine Interval.mem_def.2 ⟨by omega, ?_⟩
    unfold Interval.size at hi
    omega
  have hex : ∀ i < c.2.size, ∃ e : LinComb K, predictionComb n order ref level (toPt (c.1 ++ [c.2.start + (i : Int)])) = some e ∧
      CellComb n ref e (predCells K n order level (c.1 ++ [c.2.start + (i : Int)])) :=
    fun i hi => predictionComb_spec ho hw (by simp [hc]) (hB _ (hin i hi))
  choose! E e1 e2 using hex
  have hm := mapM_option (f := fun ii : Nat => (predictionComb (K := K) n order ref level (toPt (c.1 ++ [c.2.start + (ii : Int)]))).map
      fun l => (numOf n ref level (c.1 ++ [c.2.start]) + (ii : Int), l))
    (g := fun ii : Nat => (numOf n ref level (c.1 ++ [c.2.start]) + (ii : Int), E ii)) (l := List.range c.2.size)
    (fun ii hii => by rw [e1 ii (List.mem_range.1 hii)]; rfl)
  refine ⟨_, by unfold predictionRow; rw [index_numOf hw (hA _ hs)]; exact hm, ?_⟩
  rw [rowCells_eq]
  apply forall₂_range
  intro i hi
  refine ⟨?_, e2 i hi⟩
  simp only []
  have hi' := Interval.mem_def.1 (hin i hi)
  rw [numOf_shift hw (a := c.2.start) (b := c.2.start + (i : Int)) (by omega) (fun x h1 h2 => hA x (Interval.mem_def.2 ⟨h1, by omega⟩))]
  omega

end

end Samurai

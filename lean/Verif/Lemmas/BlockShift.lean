/-
The assembly with shifts is the assembly without shifts, moved.
-/
import Verif.Lemmas.BlockAssembly

namespace Samurai

section
variable {K : Type} [Field K]

/-- A coefficient, moved. -/
def shiftEntry (a b : Int) (e : MatEntry K) : MatEntry K := (a + e.1, b + e.2.1, e.2.2)

/-- The layout without shifts. -/
def MatLayout.unshifted (L : MatLayout) : MatLayout := { L with rowShift := 0, colShift := 0 }

theorem dataIndex_shift (soa : Bool) (N size : Nat) (shift k : Int) (j : Nat) : dataIndex soa N size shift k j = shift + dataIndex soa N size 0 k j := by
  unfold dataIndex
  split_ifs <;> ring

theorem MatLayout.row_shift (L : MatLayout) (k : Int) (i : Nat) : L.row k i = L.rowShift + L.unshifted.row k i := dataIndex_shift ..

theorem MatLayout.col_shift (L : MatLayout) (k : Int) (i : Nat) : L.col k i = L.colShift + L.unshifted.col k i := dataIndex_shift ..

/-! ### loops -/

theorem stencilLoop_map {α β γ δ ε : Type} (g : δ → ε) (f : α → β → γ → List δ) : ∀ (A : List α) (B : List β) (C : List γ),
    stencilLoop (fun a b c => (f a b c).map g) A B C = (stencilLoop f A B C).map g
  | [], _, _ => rfl
  | _ :: _, [], _ => rfl
  | _ :: _, _ :: _, [] => rfl
  | a :: A, b :: B, c :: C => by
    rw [stencilLoop, stencilLoop, stencilLoop_map g f A B C, List.map_append]

theorem overLevels_map {δ ε : Type} (g : δ → ε) {f : Nat → Option (List δ)} {f' : Nat → Option (List ε)} (h : ∀ l, f' l = (f l).map (List.map g)) :
    ∀ ls, overLevels f' ls = (overLevels f ls).map (List.map g)
  | [] => rfl
  | l :: ls => by
    rw [overLevels, overLevels, overLevels_map g h ls, h l]
    cases f l <;> cases overLevels f ls <;> simp

theorem overList_map {α δ ε : Type} (g : δ → ε) {f : α → Option (List δ)} {f' : α → Option (List ε)} (h : ∀ a, f' a = (f a).map (List.map g)) :
    ∀ l, overList f' l = (overList f l).map (List.map g)
  | [] => rfl
  | a :: l => by
    rw [overList, overList, overList_map g h l, h a]
    cases f a <;> cases overList f l <;> simp

theorem flatMap_shift {α δ ε : Type} (g : δ → ε) {F : α → List δ} {F' : α → List ε} (h : ∀ a, F' a = (F a).map g) (l : List α) : l.flatMap F' = (l.flatMap F).map g := by
  rw [List.map_flatMap]
  exact congrArg (fun F => l.flatMap F) (funext h)

/-! ### the schemes -/

variable {m p : Nat}

theorem faceEntries_shift (L : MatLayout) (rec : GhostMap K) (A B : List ((Fin m → K) →ₗ[K] (Fin p → K))) (f : FaceCall) :
    faceEntries L rec A B f = (faceEntries L.unshifted rec A B f).map (shiftEntry L.rowShift L.colShift) := by
  unfold faceEntries
  refine flatMap_shift _ (fun i => flatMap_shift _ (fun j => ?_) _) _
  rw [← stencilLoop_map]
  congr 1
  funext a b c
  cases rec.find c.index with
  | none => simp [shiftEntry, ← MatLayout.row_shift, ← MatLayout.col_shift]
  | some l =>
    simp only []
    refine flatMap_shift _ (fun e => ?_) _
    simp [shiftEntry, ← MatLayout.row_shift, ← MatLayout.col_shift]

theorem bdryEntries_shift (L : MatLayout) (A : List ((Fin m → K) →ₗ[K] (Fin p → K))) (f : BdryCall) :
    bdryEntries L A f = (bdryEntries L.unshifted A f).map (shiftEntry L.rowShift L.colShift) := by
  unfold bdryEntries
  refine flatMap_shift _ (fun i => flatMap_shift _ (fun j => ?_) _) _
  rw [← stencilLoop_map]
  congr 1
  funext a b c
  simp [shiftEntry, ← MatLayout.row_shift, ← MatLayout.col_shift]

theorem assembleScheme_shift (n : Nat) (h0 : K) (L : MatLayout) (rec : GhostMap K) (ref : CA) (sub : LCA) (cells : CA) (maxL : Nat) (bdry : Bool)
    (S : Nat → List (Nat → Int)) (C : Nat → Nat → List MCell → List ((Fin m → K) →ₗ[K] (Fin p → K))) :
    assembleScheme n h0 L rec ref sub cells maxL bdry S C = (assembleScheme n h0 L.unshifted rec ref sub cells maxL bdry S C).map (List.map (shiftEntry L.rowShift L.colShift)) := by
  have hsame : ∀ d level, asmSame n h0 L rec ref cells (cartesianDir d) (S d) (C d) level =
      (asmSame n h0 L.unshifted rec ref cells (cartesianDir d) (S d) (C d) level).map (List.map (shiftEntry L.rowShift L.colShift)) := by
    intro d level
    unfold asmSame
    rw [Option.map_map]
    congr 1
    funext fs
    exact flatMap_shift _ (fun f => faceEntries_shift ..) _
  have hjump : ∀ d level, asmJump n h0 L rec ref cells maxL (cartesianDir d) (S d) (C d) level =
      (asmJump n h0 L.unshifted rec ref cells maxL (cartesianDir d) (S d) (C d) level).map (List.map (shiftEntry L.rowShift L.colShift)) := by
    intro d level
    unfold asmJump
    split
    · simp only [Option.map_some, List.map_append]
      refine congrArg some (congrArg₂ (· ++ ·) ?_ ?_)
      · exact flatMap_shift _ (fun f => faceEntries_shift ..) _
      · exact flatMap_shift _ (fun f => faceEntries_shift ..) _
    · rfl
  have hbdry : ∀ d level, asmBdry n h0 L ref sub cells (cartesianDir d) (S d) (C d) level =
      (asmBdry n h0 L.unshifted ref sub cells (cartesianDir d) (S d) (C d) level).map (List.map (shiftEntry L.rowShift L.colShift)) := by
    intro d level
    unfold asmBdry
    split
    · simp only [Option.map_some, List.map_append]
      refine congrArg some (congrArg₂ (· ++ ·) ?_ ?_)
      · exact flatMap_shift _ (fun f => bdryEntries_shift ..) _
      · exact flatMap_shift _ (fun f => bdryEntries_shift ..) _
    · rfl
  have hint : ∀ d, asmInterior n h0 L rec ref cells maxL (cartesianDir d) (S d) (C d) =
      (asmInterior n h0 L.unshifted rec ref cells maxL (cartesianDir d) (S d) (C d)).map (List.map (shiftEntry L.rowShift L.colShift)) := by
    intro d
    unfold asmInterior
    rw [overLevels_map _ (hsame d), overLevels_map _ (hjump d)]
    cases overLevels (asmSame n h0 L.unshifted rec ref cells (cartesianDir d) (S d) (C d)) cells.levels <;>
      cases overLevels (asmJump n h0 L.unshifted rec ref cells maxL (cartesianDir d) (S d) (C d)) (List.range' cells.minLevel (cells.maxLevel - cells.minLevel)) <;> simp
  have hb : (if bdry then overLevels (fun d => overLevels (asmBdry n h0 L ref sub cells (cartesianDir d) (S d) (C d)) cells.usedLevels) (List.range (n + 1)) else some []) =
      (if bdry then overLevels (fun d => overLevels (asmBdry n h0 L.unshifted ref sub cells (cartesianDir d) (S d) (C d)) cells.usedLevels) (List.range (n + 1)) else some []).map
        (List.map (shiftEntry L.rowShift L.colShift)) := by
    split
    · exact overLevels_map _ (fun d => overLevels_map _ (hbdry d) _) _
    · rfl
  unfold assembleScheme
  rw [hb, overLevels_map _ hint]
  cases overLevels (fun d => asmInterior n h0 L.unshifted rec ref cells maxL (cartesianDir d) (S d) (C d)) (List.range (n + 1)) <;>
    cases (if bdry then overLevels (fun d => overLevels (asmBdry n h0 L.unshifted ref sub cells (cartesianDir d) (S d) (C d)) cells.usedLevels) (List.range (n + 1)) else some []) <;> simp

theorem LinOp.assemble_shift (n : Nat) (h0 : K) (L : MatLayout) (rec : GhostMap K) (ref : CA) (sub : LCA) (cells : CA) (maxL : Nat) (op : LinOp K m p) :
    op.assemble n h0 L rec ref sub cells maxL = (op.assemble n h0 L.unshifted rec ref sub cells maxL).map (List.map (shiftEntry L.rowShift L.colShift)) := by
  cases op with
  | flux ld bdry => exact assembleScheme_shift ..
  | cell cd =>
    show assembleCell n h0 L ref cells cd = (assembleCell n h0 L.unshifted ref cells cd).map _
    unfold assembleCell
    rw [Option.map_map]
    congr 1
    funext l
    refine flatMap_shift _ (fun c => ?_) _
    unfold cellEntries
    refine flatMap_shift _ (fun i => flatMap_shift _ (fun j => ?_) _) _
    rw [List.map_map]
    refine List.map_congr_left fun e _ => ?_
    simp [shiftEntry, ← MatLayout.row_shift, ← MatLayout.col_shift]

theorem assembleBlock_shift (n : Nat) (h0 : K) (L : MatLayout) (rec : GhostMap K) (ref : CA) (sub : LCA) (cells : CA) (maxL : Nat) (o : Option (List (LinOp K m p))) :
    assembleBlock n h0 L rec ref sub cells maxL o = (assembleBlock n h0 L.unshifted rec ref sub cells maxL o).map (List.map (shiftEntry L.rowShift L.colShift)) := by
  rw [assembleBlock_getD, assembleBlock_getD]
  exact overList_map _ (fun op => op.assemble_shift ..) _

/-! ### the marks -/

theorem marks_shift (n : Nat) (h0 : K) (L : MatLayout) (ref : CA) (sub : LCA) (cells : CA) (maxL : Nat) (op : LinOp K m p) :
    op.marks n h0 L ref sub cells maxL = (op.marks n h0 L.unshifted ref sub cells maxL).map (List.map (L.rowShift + ·)) := by
  have hmap : ∀ c : Int, (List.range L.outSize).map (fun i => L.row c i) = ((List.range L.unshifted.outSize).map fun i => L.unshifted.row c i).map (L.rowShift + ·) := by
    intro c
    rw [List.map_map]
    exact List.map_congr_left fun i _ => L.row_shift ..
  cases op with
  | flux ld bdry =>
    show schemeMarks n L ref sub cells maxL bdry ld.stencil = (schemeMarks n L.unshifted ref sub cells maxL bdry ld.stencil).map _
    have hface : ∀ f, faceMarks L f = (faceMarks L.unshifted f).map (L.rowShift + ·) := by
      intro f
      refine flatMap_shift _ (fun i => ?_) _
      simp [← MatLayout.row_shift]
    have hint : ∀ d, (interiorFaces n ref cells maxL (cartesianDir d) (ld.stencil d)).map (fun fs => fs.flatMap (faceMarks L)) =
        ((interiorFaces n ref cells maxL (cartesianDir d) (ld.stencil d)).map fun fs => fs.flatMap (faceMarks L.unshifted)).map (List.map (L.rowShift + ·)) := by
      intro d
      rw [Option.map_map]
      congr 1
      funext fs
      exact flatMap_shift _ hface _
    have hbd : ∀ d level, bdryLevelMarks n L ref sub cells (cartesianDir d) (ld.stencil d) level =
        (bdryLevelMarks n L.unshifted ref sub cells (cartesianDir d) (ld.stencil d) level).map (List.map (L.rowShift + ·)) := by
      intro d level
      unfold bdryLevelMarks
      split
      · rw [Option.map_some]
        congr 1
        exact flatMap_shift _ (fun f => hmap _) _
      · rfl
    have hb : (if bdry then overLevels (fun d => overLevels (bdryLevelMarks n L ref sub cells (cartesianDir d) (ld.stencil d)) cells.usedLevels) (List.range (n + 1)) else some []) =
        (if bdry then overLevels (fun d => overLevels (bdryLevelMarks n L.unshifted ref sub cells (cartesianDir d) (ld.stencil d)) cells.usedLevels) (List.range (n + 1)) else some []).map
          (List.map (L.rowShift + ·)) := by
      split
      · exact overLevels_map _ (fun d => overLevels_map _ (hbd d) _) _
      · rfl
    unfold schemeMarks
    rw [hb, overLevels_map _ hint]
    cases overLevels (fun d => (interiorFaces n ref cells maxL (cartesianDir d) (ld.stencil d)).map fun fs => fs.flatMap (faceMarks L.unshifted)) (List.range (n + 1)) <;>
      cases (if bdry then overLevels (fun d => overLevels (bdryLevelMarks n L.unshifted ref sub cells (cartesianDir d) (ld.stencil d)) cells.usedLevels) (List.range (n + 1)) else some []) <;> simp
  | cell cd =>
    show cellMarks n h0 L ref cells cd = (cellMarks n h0 L.unshifted ref cells cd).map _
    unfold cellMarks
    rw [Option.map_map]
    congr 1
    funext l
    exact flatMap_shift _ (fun c => hmap _) _

theorem uselessRows_shift (L : MatLayout) (marked : List Int) : uselessRows L (marked.map (L.rowShift + ·)) = uselessRows L.unshifted marked := by
  unfold uselessRows
  refine List.filter_congr fun i _ => ?_
  simp [MatLayout.unshifted]

theorem bcEntriesOf_shift [DecidableEq K] {n : Nat} (h0 : K) (L : MatLayout) (h : L.rowShift = L.colShift) (call : BcCall K n m) :
    bcEntriesOf h0 L call = (bcEntriesOf h0 L.unshifted call).map (shiftEntry L.rowShift L.colShift) := by
  unfold bcEntriesOf
  cases bcEquation h0 call.level call.bc.kind with
  | none => rfl
  | some eq =>
    refine flatMap_shift _ (fun c => flatMap_shift _ (fun i => ?_) _) _
    split_ifs
    · simp [shiftEntry, h, ← MatLayout.col_shift]
    · rfl

theorem bcRhsOf_shift {n : Nat} (origin : Fin (n + 1) → K) (h0 : K) (L : MatLayout) (call : BcCall K n m) :
    bcRhsOf origin h0 L call = (bcRhsOf origin h0 L.unshifted call).map fun e => (L.rowShift + e.1, e.2) := by
  unfold bcRhsOf
  cases bcEquation h0 call.level call.bc.kind with
  | none => rfl
  | some eq =>
    simp only []
    rw [List.map_map]
    refine List.map_congr_left fun i _ => ?_
    simp [← MatLayout.row_shift]

/-! ### matrices and vectors -/

theorem schemeMatrix_shift (a b : Int) (E : List (MatEntry K)) (i j : Int) : schemeMatrix (E.map (shiftEntry a b)) (a + i) (b + j) = schemeMatrix E i j := by
  unfold schemeMatrix
  rw [foldl_matAdd, foldl_matAdd, List.map_map]
  congr 2
  refine List.map_congr_left fun e _ => ?_
  simp [shiftEntry]

omit [Field K] in
theorem matFold_shift (a b : Int) (T : List (MatEntry K)) : ∀ {A A' : Int → Int → K}, (∀ i j, A (a + i) (b + j) = A' i j) → ∀ i j,
    (T.map (shiftEntry a b)).foldl matInsert A (a + i) (b + j) = T.foldl matInsert A' i j := by
  induction T with
  | nil => exact fun h => h
  | cons e T ih =>
    intro A A' h
    rw [List.map_cons]
    simp only [List.foldl_cons]
    refine ih fun i j => ?_
    simp only [matInsert, shiftEntry, add_right_inj, h]

omit [Field K] in
theorem vecFold_shift (a : Int) (T : List (Int × K)) : ∀ {v v' : Int → K}, (∀ i, v (a + i) = v' i) → ∀ i,
    (T.map fun e => (a + e.1, e.2)).foldl vecInsert v (a + i) = T.foldl vecInsert v' i := by
  induction T with
  | nil => exact fun h => h
  | cons e T ih =>
    intro v v' h
    rw [List.map_cons]
    simp only [List.foldl_cons]
    refine ih fun i => ?_
    simp only [vecInsert, add_right_inj, h]

end

end Samurai

import Verif.Lemmas.PetscMat
import Verif.Lemmas.Operators

namespace Samurai

section
variable {K : Type} [Field K] {m p : Nat}

theorem list_sum_at {ι : Type} (l : List ι) (f : ι → Fin p → K) (i : Fin p) : (l.map f).sum i = (l.map fun d => f d i).sum := by
  induction l with
  | nil => rfl
  | cons a l ih => rw [List.map_cons, List.sum_cons, List.map_cons, List.sum_cons, Pi.add_apply, ih]

/-- The flux function of a linear scheme whose coefficients are `C level cells`. -/
def asmFlux (u : Int → Fin m → K) (C : Nat → List MCell → List ((Fin m → K) →ₗ[K] (Fin p → K))) : List MCell → (Fin p → K) × (Fin p → K) :=
  asConservative fun c => linValue u (C (levelOf c) c) c

/-- The number of a leaf. -/
def LeafNum (n : Nat) (cells : CA) (k : Int) : Prop := ∃ l q, (l, q, k) ∈ cells.numbered n

/-- The calls of `MatSetValue` of a list of regions. -/
structure AsmOK (n : Nat) (cells : CA) (L : MatLayout) (x : Int → K) (rs : List (Region (Fin p → K))) (E : List (MatEntry K)) : Prop where
  cols : ∀ e ∈ E, L.colShift ≤ e.2.1 ∧ e.2.1 < L.colShift + (L.nCells * L.inSize : Nat)
  rows : ∀ e ∈ E, ∃ (k : Int) (i : Fin p), e.1 = L.row k i ∧ LeafNum n cells k
  sum : ∀ v : Int, 0 ≤ v → v < L.nCells → ∀ i : Fin p, rowSum E x (L.row v i) = updSum (regionUpds rs) v i

variable {n : Nat} {cells ref : CA} {dom sub : LCA} {minL maxL w : Nat} {L : MatLayout} {x : Int → K} {rec : GhostMap K}

theorem AsmOK.nil : AsmOK (p := p) n cells L x [] [] :=
  ⟨by simp, by simp, fun _ _ _ _ => rfl⟩

theorem AsmOK.append {rs rs' : List (Region (Fin p → K))} {E E' : List (MatEntry K)} (h : AsmOK n cells L x rs E) (h' : AsmOK n cells L x rs' E') :
    AsmOK n cells L x (rs ++ rs') (E ++ E') := by
  refine ⟨fun e he => ?_, fun e he => ?_, fun v h0 h1 i => ?_⟩
  · rcases List.mem_append.1 he with he | he
    · exact h.cols e he
    · exact h'.cols e he
  · rcases List.mem_append.1 he with he | he
    · exact h.rows e he
    · exact h'.rows e he
  · rw [rowSum_append, regionUpds_append, updSum_append, h.sum v h0 h1, h'.sum v h0 h1]
    rfl

theorem overLevels_asm {f : Nat → Option (List (Region (Fin p → K)))} {f' : Nat → Option (List (MatEntry K))} : ∀ ls : List Nat,
    (∀ l ∈ ls, ∃ rs E, f l = some rs ∧ f' l = some E ∧ AsmOK n cells L x rs E) →
    ∃ rs E, overLevels f ls = some rs ∧ overLevels f' ls = some E ∧ AsmOK n cells L x rs E := by
  intro ls
  induction ls with
  | nil => intro _; exact ⟨[], [], rfl, rfl, AsmOK.nil⟩
  | cons l ls ih =>
    intro h
    obtain ⟨a, A, a1, a2, a3⟩ := h l List.mem_cons_self
    obtain ⟨b, B, b1, b2, b3⟩ := ih fun l' hl' => h l' (List.mem_cons_of_mem _ hl')
    exact ⟨a ++ b, A ++ B, by unfold overLevels; rw [a1, b1], by unfold overLevels; rw [a2, b2], a3.append b3⟩

/-- What is needed of the numbers. -/
structure AsmNums (n : Nat) (cells ref : CA) (N : Nat) : Prop where
  num : FVNumbers n cells ref
  range : ∀ l q k, (l, q, k) ∈ ref.numbered n → 0 ≤ k ∧ k < N

theorem leafNum_of (hc : cells.WF n) (hr : ref.WF n) (hn : FVNumbers n cells ref) {l : Nat} {q : List Int} {c : MCell} (h : cells.Mem n l q)
    (hi : CellIs n ref l q c) : LeafNum n cells c.index := by
  obtain ⟨v, hv⟩ := CA.exists_number hc h
  obtain rfl := CA.number_unique hr hi.2.2 (hn.same _ _ _ hv)
  exact ⟨l, q, hv⟩

theorem face_group (hm : L.inSize = m) (hp : L.outSize = p) (hN : AsmNums n cells ref L.nCells) (hr : MapRange L.nCells rec) (h0 : K)
    (u : Int → Fin m → K) (hx : IsVector L.soa L.nCells m L.colShift u x) (hg : GhostsHold rec u) {dir : Nat → Int} {S : List (Nat → Int)}
    (C : Nat → List MCell → List ((Fin m → K) →ₗ[K] (Fin p → K))) (hS : S ≠ []) (hf hl hR : Nat)
    (A B : List ((Fin m → K) →ₗ[K] (Fin p → K)) → List ((Fin m → K) →ₗ[K] (Fin p → K)))
    (hlen : ∀ a, (A a).length = (B a).length)
    (hA : ∀ a c, linValue u (A a) c = contribution n (linValue u a c) (cellLength h0 hf) (cellLength h0 hl))
    (hB : ∀ a c, linValue u (B a) c = contribution n (- linValue u a c) (cellLength h0 hf) (cellLength h0 hR)) {ts : List (List FaceCall)} {fs : List FaceCall}
    (ht : ts.flatten = fs) (hfs : ∀ f ∈ fs, f.Right n ref dir S ∧ max f.left.level f.right.level = hf ∧ LeafNum n cells f.left.index ∧ LeafNum n cells f.right.index) :
    AsmOK n cells L x [faceRegion n h0 (asmFlux u C) hf hl hR ts] (fs.flatMap fun f => faceEntries L rec (A (C hf f.comput)) (B (C hf f.comput)) f) := by
  have hC : ∀ f ∈ fs, (∀ c ∈ f.comput, 0 ≤ c.index ∧ c.index < L.nCells) ∧ levelOf f.comput = hf := by
    intro f hf'
    obtain ⟨⟨-, -, q, -, h2⟩, h3, -⟩ := hfs f hf'
    rw [h3] at h2
    refine ⟨fun c hc => ?_, levelOf_stencil hS h2⟩
    obtain ⟨s, -, hs⟩ := forall₂_mem h2 hc
    exact hN.range _ _ _ hs.2.2
  refine ⟨fun e he => ?_, fun e he => ?_, fun v h0v h1v i => ?_⟩
  · obtain ⟨f, hf', he⟩ := List.mem_flatMap.1 he
    exact (faceEntries_mem hm hr (hC f hf').1 he).2
  · obtain ⟨f, hf', he⟩ := List.mem_flatMap.1 he
    obtain ⟨i, h | h⟩ := (faceEntries_mem hm hr (hC f hf').1 he).1
    · exact ⟨_, i, h, (hfs f hf').2.2.1⟩
    · exact ⟨_, i, h, (hfs f hf').2.2.2⟩
  · unfold regionUpds
    rw [List.flatMap_cons, List.flatMap_nil, List.append_nil]
    show _ = updSum (ts.map fun t => t.flatMap (faceUpdates n h0 (asmFlux u C) hf hl hR)).flatten v i
    rw [flatten_map_flatMap, ht, rowSum_flatMap, updSum_flatMap, list_sum_at]
    refine sum_map_congr fun f hf' => ?_
    have h1 := hN.range _ _ _ (hfs f hf').1.1.2.2
    have h2 := hN.range _ _ _ (hfs f hf').1.2.1.2.2
    rw [face_rowSum hm hp u hx hr hg (hlen _) (hC f hf').1 h1 h2 h0v h1v i, updSum_face, hA, hB]
    unfold asmFlux asConservative
    simp only [(hC f hf').2]
    split_ifs <;> simp

theorem bdry_group (hm : L.inSize = m) (hp : L.outSize = p) (hN : AsmNums n cells ref L.nCells) (h0 : K)
    (u : Int → Fin m → K) (hx : IsVector L.soa L.nCells m L.colShift u x) {S : List (Nat → Int)} {base : List Int → List Int}
    (C : Nat → List MCell → List ((Fin m → K) →ₗ[K] (Fin p → K))) (hS : S ≠ []) (level : Nat)
    (A : List ((Fin m → K) →ₗ[K] (Fin p → K)) → List ((Fin m → K) →ₗ[K] (Fin p → K))) (F : List MCell → Fin p → K)
    (hA : ∀ c, linValue u (A (C (levelOf c) c)) c = contribution n (F c) (cellLength h0 level) (cellLength h0 level)) {ts : List (List BdryCall)} {fs : List BdryCall}
    (ht : ts.flatten = fs) (hfs : ∀ f ∈ fs, CellIs n ref level f.cell.pt f.cell ∧ List.Forall₂ (fun s c => CellIs n ref level (shiftPoint s n (base f.cell.pt)) c) S f.comput ∧
      LeafNum n cells f.cell.index) :
    AsmOK n cells L x [bdryRegion n h0 F level ts] (fs.flatMap fun f => bdryEntries L (A (C level f.comput)) f) := by
  have hC : ∀ f ∈ fs, (∀ c ∈ f.comput, 0 ≤ c.index ∧ c.index < L.nCells) ∧ levelOf f.comput = level := by
    intro f hf'
    obtain ⟨-, h2, -⟩ := hfs f hf'
    refine ⟨fun c hc => ?_, levelOf_stencil hS h2⟩
    obtain ⟨s, -, hs⟩ := forall₂_mem h2 hc
    exact hN.range _ _ _ hs.2.2
  refine ⟨fun e he => ?_, fun e he => ?_, fun v h0v h1v i => ?_⟩
  · obtain ⟨f, hf', he⟩ := List.mem_flatMap.1 he
    exact (bdryEntries_mem hm (hC f hf').1 he).2
  · obtain ⟨f, hf', he⟩ := List.mem_flatMap.1 he
    obtain ⟨i, h⟩ := (bdryEntries_mem hm (hC f hf').1 he).1
    exact ⟨_, i, h, (hfs f hf').2.2⟩
  · unfold regionUpds
    rw [List.flatMap_cons, List.flatMap_nil, List.append_nil]
    unfold bdryRegion
    rw [flatten_map_map, ht, rowSum_flatMap, updSum_map, list_sum_at]
    refine sum_map_congr fun f hf' => ?_
    rw [bdry_rowSum hm hp u hx (hC f hf').1 (hN.range _ _ _ (hfs f hf').1.2.2) h0v h1v i]
    have := hA f.comput
    rw [(hC f hf').2] at this
    rw [this]
    split_ifs <;> rfl

theorem ends_levels {fs : List FaceCall} {P : (Nat × List Int) × (Nat × List Int) → Prop} {dir : Nat → Int} {S : List (Nat → Int)}
    (g : FVMesh n cells ref dom minL maxL w) (hN : FVNumbers n cells ref) (h : FacesOK n ref dir S P fs) {hf : Nat}
    (hP : ∀ e, P e → max e.1.1 e.2.1 = hf ∧ cells.Mem n e.1.1 e.1.2 ∧ cells.Mem n e.2.1 e.2.2) :
    ∀ f ∈ fs, f.Right n ref dir S ∧ max f.left.level f.right.level = hf ∧ LeafNum n cells f.left.index ∧ LeafNum n cells f.right.index := by
  intro f hf'
  have hr := h.right f hf'
  obtain ⟨h1, h2, h3⟩ := hP _ ((h.mem _).1 (List.mem_map.2 ⟨f, hf', rfl⟩))
  exact ⟨hr, h1, leafNum_of g.leaves.wf g.refWF hN h2 hr.1, leafNum_of g.leaves.wf g.refWF hN h3 hr.2.1⟩

variable (hm : L.inSize = m) (hp : L.outSize = p) (g : FVMesh n cells ref dom minL maxL w) (hN : AsmNums n cells ref L.nCells) (hr : MapRange L.nCells rec) (h0 : K)
  (u : Int → Fin m → K) (hx : IsVector L.soa L.nCells m L.colShift u x) (hg : GhostsHold rec u)
include hm hp g hN hr hx hg

theorem asmSame_ok {dir : Nat → Int} {S : List (Nat → Int)} (C : Nat → List MCell → List ((Fin m → K) →ₗ[K] (Fin p → K))) (hdir : ∀ d, - dir d ≤ 1)
    (hS : StencilOK n w dir S) {level : Nat} (hl : level ≤ maxL) :
    ∃ rs E, sameRegion n h0 ref cells dir S (asmFlux u C) level = some rs ∧ asmSame n h0 L rec ref cells dir S C level = some E ∧ AsmOK n cells L x rs E := by
  obtain ⟨fs, h1, h2⟩ := g.sameOK hdir hS hl
  have ht := sameLevelTasks_flatten (n := n) (ref := ref) (cells := cells) (level := level) (dir := dir) (S := S)
  rw [h1] at ht
  cases he : sameLevelTasks n ref cells level dir S with
  | none => rw [he] at ht; cases ht
  | some ts =>
    rw [he] at ht
    refine ⟨_, _, by unfold sameRegion; rw [he]; rfl, by unfold asmSame; rw [h1]; rfl, ?_⟩
    exact face_group hm hp hN hr h0 u hx hg C hS.ne_nil level level level (fun a => contributionL n a _ _) (fun a => negL (contributionL n a _ _))
      (fun a => by rw [negL_length]) (fun a c => linValue_contribution ..) (fun a c => by rw [linValue_neg, linValue_contribution, contribution_neg])
      (Option.some.inj ht) (ends_levels g hN.num h2 (by rintro e ⟨q, q1, q2, rfl⟩; exact ⟨Nat.max_self _, q1, q2⟩))

theorem asmJump_ok {dir : Nat → Int} {S : List (Nat → Int)} (C : Nat → List MCell → List ((Fin m → K) →ₗ[K] (Fin p → K)))
    (hdir : ∀ d, dir d ≤ 1 ∧ - dir d ≤ 1) (hax : AxisDir n dir) (hax' : AxisDir n fun d => - dir d) (hw1 : 1 ≤ w) (hS : StencilOK n w dir S) (level : Nat) :
    ∃ rs E, jumpRegions n h0 ref cells maxL dir S (asmFlux u C) level = some rs ∧ asmJump n h0 L rec ref cells maxL dir S C level = some E ∧ AsmOK n cells L x rs E := by
  obtain ⟨a, a1, a2⟩ := g.jumpOK (fun d => (hdir d).2) hax hw1 hS level
  obtain ⟨b, b1, b2⟩ := g.oppOK (fun d => (hdir d).1) hax' hw1 hS level
  have hta := jumpTasks_flatten (n := n) (ref := ref) (cells := cells) (maxL := maxL) (level := level) (dir := dir) (S := S)
  have htb := jumpTasksOpp_flatten (n := n) (ref := ref) (cells := cells) (maxL := maxL) (level := level) (dir := dir) (S := S)
  rw [a1] at hta
  rw [b1] at htb
  cases hea : jumpTasks n ref cells maxL level dir S with
  | none => rw [hea] at hta; cases hta
  | some ta =>
    cases heb : jumpTasksOpp n ref cells maxL level dir S with
    | none => rw [heb] at htb; cases htb
    | some tb =>
      rw [hea] at hta
      rw [heb] at htb
      refine ⟨_, _, by unfold jumpRegions; rw [hea, heb], by unfold asmJump; rw [a1, b1], ?_⟩
      refine AsmOK.append (rs := [_]) (rs' := [_]) ?_ ?_
      · exact face_group hm hp hN hr h0 u hx hg C hS.ne_nil (level + 1) level (level + 1) (fun a => contributionL n a _ _) (fun a => contributionL n (negL a) _ _)
          (fun a => by rw [contributionL_length, contributionL_length, negL_length])
          (fun a c => linValue_contribution ..) (fun a c => by rw [linValue_contribution, linValue_neg])
          (Option.some.inj hta) (ends_levels g hN.num a2 (by
            rintro e ⟨q, q1, q2, rfl⟩
            exact ⟨by show max level (level + 1) = level + 1; omega, q1, q2⟩))
      · exact face_group hm hp hN hr h0 u hx hg C hS.ne_nil (level + 1) (level + 1) level (fun a => contributionL n a _ _) (fun a => contributionL n (negL a) _ _)
          (fun a => by rw [contributionL_length, contributionL_length, negL_length])
          (fun a c => linValue_contribution ..) (fun a c => by rw [linValue_contribution, linValue_neg])
          (Option.some.inj htb) (ends_levels g hN.num b2 (by
            rintro e ⟨q, q1, q2, rfl⟩
            exact ⟨by show max (level + 1) level = level + 1; omega, q1, q2⟩))

theorem asmInterior_ok {d : Nat} (hd : d ≤ n) {S : List (Nat → Int)} (C : Nat → List MCell → List ((Fin m → K) →ₗ[K] (Fin p → K)))
    (hS : StencilOK n w (unitDir d) S) :
    ∃ rs E, interiorRegions n h0 ref cells maxL (unitDir d) S (asmFlux u C) = some rs ∧
      asmInterior n h0 L rec ref cells maxL (unitDir d) S C = some E ∧ AsmOK n cells L x rs E := by
  have hlev : ∀ l ∈ cells.levels, l ≤ maxL := by
    intro l hl
    unfold CA.levels at hl
    rw [List.mem_range'_1] at hl
    rcases cells.level_cases with ⟨_, h1, h2⟩ | ⟨h1, _, _, h2, _, _⟩
    · omega
    · obtain ⟨p, hp⟩ := (mem_usedLevels g.leaves.wf (l := cells.maxLevel)).1 (List.mem_filter.2 ⟨by
        unfold CA.levels
        rw [List.mem_range'_1]
        omega, by rw [h2]; rfl⟩)
      have := (g.leaves.between _ _ hp).2
      omega
  obtain ⟨ra, A, a1, a2, a3⟩ := overLevels_asm (n := n) (cells := cells) (L := L) (x := x) cells.levels
    (fun l hl => asmSame_ok hm hp g hN hr h0 u hx hg C (fun k => (unitDir_le d k).2) hS (hlev l hl))
  obtain ⟨rb, B, b1, b2, b3⟩ := overLevels_asm (n := n) (cells := cells) (L := L) (x := x) (List.range' cells.minLevel (cells.maxLevel - cells.minLevel))
    (fun l _ => asmJump_ok hm hp g hN hr h0 u hx hg C (unitDir_le d) (unitDir_axis n d) (unitDir_axis_neg n d) (hS.pos hd) hS l)
  exact ⟨ra ++ rb, A ++ B, by unfold interiorRegions; rw [a1, b1], by unfold asmInterior; rw [a2, b2], a3.append b3⟩

omit hr hg in
theorem asmBdry_ok {d : Nat} (hd : d ≤ n) {S : List (Nat → Int)} (C : Nat → List MCell → List ((Fin m → K) →ₗ[K] (Fin p → K)))
    (hS : StencilOK n w (unitDir d) S) (hsub : constructSubdomain n cells maxL = some sub) {level : Nat} (hl : level ≤ maxL) :
    ∃ rs E, bdryRegions n h0 ref sub cells (unitDir d) S (asmFlux u C) level = some rs ∧
      asmBdry n h0 L ref sub cells (unitDir d) S C level = some E ∧ AsmOK n cells L x rs E := by
  obtain ⟨⟨fs, a1, a2, a3, a4⟩, fs', b1, b2, b3, b4⟩ := C41_boundary_calls n cells ref dom sub minL maxL w d level S g hd hS hl hsub
  have hta := bdryTasks_flatten (n := n) (ref := ref) (sub := sub) (cells := cells) (dir := unitDir d) (S := S) (level := level)
  have htb := bdryTasksOpp_flatten (n := n) (ref := ref) (sub := sub) (cells := cells) (dir := unitDir d) (S := S) (level := level)
  rw [a1] at hta
  rw [b1] at htb
  cases hea : bdryTasks n ref sub cells (unitDir d) S level with
  | none => rw [hea] at hta; cases hta
  | some ta =>
    cases heb : bdryTasksOpp n ref sub cells (unitDir d) S level with
    | none => rw [heb] at htb; cases htb
    | some tb =>
      rw [hea] at hta
      rw [heb] at htb
      refine ⟨_, _, by unfold bdryRegions; rw [hea, heb], by unfold asmBdry; rw [a1, b1], ?_⟩
      refine AsmOK.append (rs := [_]) (rs' := [_]) ?_ ?_
      · exact bdry_group hm hp hN h0 u hx (base := fun p => p) C hS.ne_nil level (fun a => contributionL n a _ _) _ (fun c => linValue_contribution ..)
          (Option.some.inj hta) fun f hf => ⟨(a4 f hf).1, (a4 f hf).2, leafNum_of g.leaves.wf g.refWF hN.num
            ((a3 _).1 (List.mem_map.2 ⟨f, hf, rfl⟩)).1 (a4 f hf).1⟩
      · exact bdry_group hm hp hN h0 u hx (base := fun p => shiftPoint (fun k => - unitDir d k) n p) C hS.ne_nil level (fun a => contributionL n (negL a) _ _) _
          (fun c => by rw [linValue_contribution, linValue_neg]; rfl)
          (Option.some.inj htb) fun f hf => by
            obtain ⟨k1, q, rfl, k2⟩ := b4 f hf
            exact ⟨k1, k2, leafNum_of g.leaves.wf g.refWF hN.num ((b3 _).1 (List.mem_map.2 ⟨f, hf, rfl⟩)).1 k1⟩

/-- The whole scheme. -/
theorem assembleScheme_ok (S : Nat → List (Nat → Int)) (C : Nat → Nat → List MCell → List ((Fin m → K) →ₗ[K] (Fin p → K)))
    (hS : ∀ d ≤ n, StencilOK n w (unitDir d) (S d)) (hsub : constructSubdomain n cells maxL = some sub) (bdry : Bool) :
    ∃ E out, assembleScheme n h0 L rec ref sub cells maxL bdry S C = some E ∧
      applyTo n h0 ref sub cells maxL bdry ⟨S, fun d => asmFlux u (C d)⟩ = some out ∧
      (∀ e ∈ E, L.colShift ≤ e.2.1 ∧ e.2.1 < L.colShift + (L.nCells * L.inSize : Nat)) ∧
      (∀ e ∈ E, ∃ (k : Int) (i : Fin p), e.1 = L.row k i ∧ LeafNum n cells k) ∧
      ∀ v : Int, 0 ≤ v → v < L.nCells → ∀ i : Fin p, rowSum E x (L.row v i) = out v i := by
  have hint : ∀ d, ∃ rs E, d ≤ n → interiorRegions n h0 ref cells maxL (cartesianDir d) (S d) (asmFlux u (C d)) = some rs ∧
      asmInterior n h0 L rec ref cells maxL (cartesianDir d) (S d) (C d) = some E ∧ AsmOK n cells L x rs E := by
    intro d
    by_cases hd : d ≤ n
    · obtain ⟨rs, E, h⟩ := asmInterior_ok hm hp g hN hr h0 u hx hg hd (C d) (hS d hd)
      exact ⟨rs, E, fun _ => h⟩
    · exact ⟨[], [], fun h => absurd h hd⟩
  have hbd : ∀ d, ∃ rs E, d ≤ n → (if bdry then overLevels (bdryRegions n h0 ref sub cells (cartesianDir d) (S d) (asmFlux u (C d))) cells.usedLevels else some []) = some rs ∧
      (if bdry then overLevels (asmBdry n h0 L ref sub cells (cartesianDir d) (S d) (C d)) cells.usedLevels else some []) = some E ∧ AsmOK n cells L x rs E := by
    intro d
    by_cases hd : d ≤ n
    · cases bdry with
      | false => exact ⟨[], [], fun _ => ⟨rfl, rfl, AsmOK.nil⟩⟩
      | true =>
        obtain ⟨rs, E, h⟩ := overLevels_asm (n := n) (cells := cells) (L := L) (x := x) cells.usedLevels
          (fun l hl => asmBdry_ok (level := l) hm hp g hN h0 u hx hd (C d) (hS d hd) hsub (by
            obtain ⟨p, hp⟩ := (mem_usedLevels g.leaves.wf).1 hl
            exact (g.leaves.between _ _ hp).2))
        exact ⟨rs, E, fun _ => h⟩
    · exact ⟨[], [], fun h => absurd h hd⟩
  choose ri Ei hi using hint
  choose rb Eb hb using hbd
  have key : ∀ {α : Type} (f : Nat → Option (List α)) (a : Nat → List α) (ls : List Nat), (∀ d ∈ ls, f d = some (a d)) → overLevels f ls = some (ls.flatMap a) := by
    intro α f a ls
    induction ls with
    | nil => intro _; rfl
    | cons d ls ih =>
      intro h
      unfold overLevels
      rw [h d List.mem_cons_self, ih fun e he => h e (List.mem_cons_of_mem _ he)]
      rfl
  have hle : ∀ d ∈ List.range (n + 1), d ≤ n := fun d hd => by rw [List.mem_range] at hd; omega
  have e1 : overLevels (fun d => asmInterior n h0 L rec ref cells maxL (cartesianDir d) (S d) (C d)) (List.range (n + 1)) = some ((List.range (n + 1)).flatMap Ei) :=
    key _ _ _ fun d hd => (hi d (hle d hd)).2.1
  have e2 : (if bdry then overLevels (fun d => overLevels (asmBdry n h0 L ref sub cells (cartesianDir d) (S d) (C d)) cells.usedLevels) (List.range (n + 1)) else some []) =
      some (if bdry then (List.range (n + 1)).flatMap Eb else []) := by
    cases bdry with
    | false => rfl
    | true => exact key _ _ _ fun d hd => (hb d (hle d hd)).2.1
  have e3 : schemeRegions n h0 ref sub cells maxL bdry ⟨S, fun d => asmFlux u (C d)⟩ = some ((List.range (n + 1)).flatMap fun d => ri d ++ rb d) :=
    key _ _ _ fun d hd => by
      unfold directionRegions
      simp only []
      rw [(hi d (hle d hd)).1, (hb d (hle d hd)).1]
  have ok : ∀ ls : List Nat, (∀ d ∈ ls, d ≤ n) → AsmOK n cells L x (ls.flatMap fun d => ri d ++ rb d) (ls.flatMap fun d => Ei d ++ Eb d) := by
    intro ls
    induction ls with
    | nil => intro _; exact AsmOK.nil
    | cons d ls ih =>
      intro h
      rw [List.flatMap_cons, List.flatMap_cons]
      exact (((hi d (h d List.mem_cons_self)).2.2).append (hb d (h d List.mem_cons_self)).2.2).append (ih fun e he => h e (List.mem_cons_of_mem _ he))
  have hE := ok _ hle
  have hbn : bdry = false → ∀ d ≤ n, Eb d = [] := by
    rintro rfl d hd
    have := (hb d hd).2.1
    rw [if_neg (by simp)] at this
    exact (Option.some.inj this).symm
  have hperm : ((List.range (n + 1)).flatMap Ei ++ if bdry then (List.range (n + 1)).flatMap Eb else []).Perm ((List.range (n + 1)).flatMap fun d => Ei d ++ Eb d) := by
    have : ∀ ls : List Nat, (∀ d ∈ ls, d ≤ n) → (ls.flatMap Ei ++ if bdry then ls.flatMap Eb else []).Perm (ls.flatMap fun d => Ei d ++ Eb d) := by
      intro ls
      induction ls with
      | nil => intro _; cases bdry <;> exact List.Perm.refl _
      | cons d ls ih =>
        intro h
        have ih := ih fun e he => h e (List.mem_cons_of_mem _ he)
        cases bdry with
        | false =>
          simp only [Bool.false_eq_true, if_false, List.append_nil, List.flatMap_cons] at ih ⊢
          rw [hbn rfl d (h d List.mem_cons_self), List.append_nil]
          exact ih.append_left _
        | true =>
          simp only [if_true, List.flatMap_cons] at ih ⊢
          rw [List.append_assoc, List.append_assoc]
          refine List.Perm.append_left _ ?_
          refine List.Perm.trans ?_ (ih.append_left (Eb d))
          rw [← List.append_assoc, ← List.append_assoc]
          exact List.perm_append_comm.append_right _
    exact this _ hle
  refine ⟨_, _, by unfold assembleScheme; rw [e1, e2], by unfold applyTo; rw [e3]; rfl, fun e he => hE.cols e (hperm.mem_iff.1 he),
    fun e he => hE.rows e (hperm.mem_iff.1 he), fun v h0v h1v i => ?_⟩
  have hs : ∀ {a b : List (MatEntry K)}, a.Perm b → rowSum a x (L.row v i) = rowSum b x (L.row v i) := fun h => (h.map _).sum_eq
  rw [hs hperm, hE.sum v h0v h1v i]
  show _ = List.foldl Region.run (fun _ => 0) ((List.range (n + 1)).flatMap fun d => ri d ++ rb d) v i
  rw [foldl_run, foldl_addTo]
  simp

end

end Samurai

/-
The matrices of the Jacobians: the product with a vector is the explicit scheme of the linearised fluxes.
-/
import Verif.Model.Newton
import Verif.Lemmas.PetscSystem

namespace Samurai

section
variable {K : Type} [Field K] {m p : Nat}

/-- The fluxes whose coefficients are `J`. -/
def pairFlux (u : Int → Fin m → K) (J : CoeffPair K m p) : List MCell → (Fin p → K) × (Fin p → K) := fun c => (linValue u (J c).1 c, linValue u (J c).2 c)

variable {n : Nat} {cells ref : CA} {dom sub : LCA} {minL maxL w : Nat} {L : MatLayout} {x : Int → K} {rec : GhostMap K}

theorem pair_group (hm : L.inSize = m) (hp : L.outSize = p) (hN : AsmNums n cells ref L.nCells) (hr : MapRange L.nCells rec) (h0 : K)
    (u : Int → Fin m → K) (hx : IsVector L.soa L.nCells m L.colShift u x) (hg : GhostsHold rec u) {dir : Nat → Int} {S : List (Nat → Int)}
    (J : CoeffPair K m p) (hJ : ∀ c, (J c).1.length = (J c).2.length) (hS : S ≠ []) (hf hl hR : Nat) {ts : List (List FaceCall)} {fs : List FaceCall}
    (ht : ts.flatten = fs) (hfs : ∀ f ∈ fs, f.Right n ref dir S ∧ max f.left.level f.right.level = hf ∧ LeafNum n cells f.left.index ∧ LeafNum n cells f.right.index) :
    AsmOK n cells L x [faceRegion n h0 (pairFlux u J) hf hl hR ts]
      (fs.flatMap fun f => faceEntries L rec (contributionL n (J f.comput).1 (cellLength h0 hf) (cellLength h0 hl)) (contributionL n (J f.comput).2 (cellLength h0 hf) (cellLength h0 hR)) f) := by
  have hC : ∀ f ∈ fs, (∀ c ∈ f.comput, 0 ≤ c.index ∧ c.index < L.nCells) ∧ levelOf f.comput = hf := by
    intro f hf'
    obtain ⟨⟨-, -, q, -, h2⟩, h3, -⟩ := hfs f hf'
    rw [h3] at h2
    refine ⟨fun c hc => ?_, levelOf_stencil hS h2⟩
    obtain ⟨s, -, hs⟩ := forall₂_mem h2 hc
    exact hN.range _ _ _ hs.2.2
  refine ⟨fun e he => ?_, fun e he => ?_, fun v h0v h1v i => ?_⟩
  · obtain ⟨f, hf', he⟩ := List.mem_flatMap.1 he
    exact (faceEntries_mem hm hr (hC f hf').1 he).2
  · obtain ⟨f, hf', he⟩ := List.mem_flatMap.1 he
    obtain ⟨i, h | h⟩ := (faceEntries_mem hm hr (hC f hf').1 he).1
    · exact ⟨_, i, h, (hfs f hf').2.2.1⟩
    · exact ⟨_, i, h, (hfs f hf').2.2.2⟩
  · unfold regionUpds
    rw [List.flatMap_cons, List.flatMap_nil, List.append_nil]
    show _ = updSum (ts.map fun t => t.flatMap (faceUpdates n h0 (pairFlux u J) hf hl hR)).flatten v i
    rw [flatten_map_flatMap, ht, rowSum_flatMap, updSum_flatMap, list_sum_at]
    refine sum_map_congr fun f hf' => ?_
    have h1 := hN.range _ _ _ (hfs f hf').1.1.2.2
    have h2 := hN.range _ _ _ (hfs f hf').1.2.1.2.2
    rw [face_rowSum hm hp u hx hr hg (by rw [contributionL_length, contributionL_length, hJ]) (hC f hf').1 h1 h2 h0v h1v i, updSum_face, linValue_contribution,
      linValue_contribution]
    unfold pairFlux
    split_ifs <;> simp

theorem bdry_group' (hm : L.inSize = m) (hp : L.outSize = p) (hN : AsmNums n cells ref L.nCells) (h0 : K)
    (u : Int → Fin m → K) (hx : IsVector L.soa L.nCells m L.colShift u x) {S : List (Nat → Int)} {base : List Int → List Int} (hS : S ≠ []) (level : Nat)
    (A : List MCell → List ((Fin m → K) →ₗ[K] (Fin p → K))) {ts : List (List BdryCall)} {fs : List BdryCall}
    (ht : ts.flatten = fs) (hfs : ∀ f ∈ fs, CellIs n ref level f.cell.pt f.cell ∧ List.Forall₂ (fun s c => CellIs n ref level (shiftPoint s n (base f.cell.pt)) c) S f.comput ∧
      LeafNum n cells f.cell.index) :
    AsmOK n cells L x [bdryRegion n h0 (fun c => linValue u (A c) c) level ts]
      (fs.flatMap fun f => bdryEntries L (contributionL n (A f.comput) (cellLength h0 level) (cellLength h0 level)) f) := by
  have hC : ∀ f ∈ fs, (∀ c ∈ f.comput, 0 ≤ c.index ∧ c.index < L.nCells) ∧ levelOf f.comput = level := by
    intro f hf'
    obtain ⟨-, h2, -⟩ := hfs f hf'
    refine ⟨fun c hc => ?_, levelOf_stencil hS h2⟩
    obtain ⟨s, -, hs⟩ := forall₂_mem h2 hc
    exact hN.range _ _ _ hs.2.2
  refine ⟨fun e he => ?_, fun e he => ?_, fun v h0v h1v i => ?_⟩
  · obtain ⟨f, hf', he⟩ := List.mem_flatMap.1 he
    exact (bdryEntries_mem hm (hC f hf').1 he).2
  · obtain ⟨f, hf', he⟩ := List.mem_flatMap.1 he
    obtain ⟨i, h⟩ := (bdryEntries_mem hm (hC f hf').1 he).1
    exact ⟨_, i, h, (hfs f hf').2.2⟩
  · unfold regionUpds
    rw [List.flatMap_cons, List.flatMap_nil, List.append_nil]
    unfold bdryRegion
    rw [flatten_map_map, ht, rowSum_flatMap, updSum_map, list_sum_at]
    refine sum_map_congr fun f hf' => ?_
    rw [bdry_rowSum hm hp u hx (hC f hf').1 (hN.range _ _ _ (hfs f hf').1.2.2) h0v h1v i, linValue_contribution]
    split_ifs <;> rfl

section
variable (hm : L.inSize = m) (hp : L.outSize = p) (g : FVMesh n cells ref dom minL maxL w) (hN : AsmNums n cells ref L.nCells) (hr : MapRange L.nCells rec) (h0 : K)
  (u : Int → Fin m → K) (hx : IsVector L.soa L.nCells m L.colShift u x) (hg : GhostsHold rec u)
include hm hp g hN hr hx hg

theorem jacSame_ok {dir : Nat → Int} {S : List (Nat → Int)} (J : CoeffPair K m p) (hJ : ∀ c, (J c).1.length = (J c).2.length) (hdir : ∀ d, - dir d ≤ 1)
    (hS : StencilOK n w dir S) {level : Nat} (hl : level ≤ maxL) :
    ∃ rs E, sameRegion n h0 ref cells dir S (pairFlux u J) level = some rs ∧ jacSame n h0 L rec ref cells dir S J level = some E ∧ AsmOK n cells L x rs E := by
  obtain ⟨fs, h1, h2⟩ := g.sameOK hdir hS hl
  have ht := sameLevelTasks_flatten (n := n) (ref := ref) (cells := cells) (level := level) (dir := dir) (S := S)
  rw [h1] at ht
  cases he : sameLevelTasks n ref cells level dir S with
  | none => rw [he] at ht; cases ht
  | some ts =>
    rw [he] at ht
    refine ⟨_, _, by unfold sameRegion; rw [he]; rfl, by unfold jacSame; rw [h1]; rfl, ?_⟩
    exact pair_group hm hp hN hr h0 u hx hg J hJ hS.ne_nil level level level
      (Option.some.inj ht) (ends_levels g hN.num h2 (by rintro e ⟨q, q1, q2, rfl⟩; exact ⟨Nat.max_self _, q1, q2⟩))

theorem jacJump_ok {dir : Nat → Int} {S : List (Nat → Int)} (J : CoeffPair K m p) (hJ : ∀ c, (J c).1.length = (J c).2.length)
    (hdir : ∀ d, dir d ≤ 1 ∧ - dir d ≤ 1) (hax : AxisDir n dir) (hax' : AxisDir n fun d => - dir d) (hw1 : 1 ≤ w) (hS : StencilOK n w dir S) (level : Nat) :
    ∃ rs E, jumpRegions n h0 ref cells maxL dir S (pairFlux u J) level = some rs ∧ jacJump n h0 L rec ref cells maxL dir S J level = some E ∧ AsmOK n cells L x rs E := by
  obtain ⟨a, a1, a2⟩ := g.jumpOK (fun d => (hdir d).2) hax hw1 hS level
  obtain ⟨b, b1, b2⟩ := g.oppOK (fun d => (hdir d).1) hax' hw1 hS level
  have hta := jumpTasks_flatten (n := n) (ref := ref) (cells := cells) (maxL := maxL) (level := level) (dir := dir) (S := S)
  have htb := jumpTasksOpp_flatten (n := n) (ref := ref) (cells := cells) (maxL := maxL) (level := level) (dir := dir) (S := S)
  rw [a1] at hta
  rw [b1] at htb
  cases hea : jumpTasks n ref cells maxL level dir S with
  | none => rw [hea] at hta; cases hta
  | some ta =>
    cases heb : jumpTasksOpp n ref cells maxL level dir S with
    | none => rw [heb] at htb; cases htb
    | some tb =>
      rw [hea] at hta
      rw [heb] at htb
      refine ⟨_, _, by unfold jumpRegions; rw [hea, heb], by unfold jacJump; rw [a1, b1], ?_⟩
      refine AsmOK.append (rs := [_]) (rs' := [_]) ?_ ?_
      · exact pair_group hm hp hN hr h0 u hx hg J hJ hS.ne_nil (level + 1) level (level + 1)
          (Option.some.inj hta) (ends_levels g hN.num a2 (by
            rintro e ⟨q, q1, q2, rfl⟩
            exact ⟨by show max level (level + 1) = level + 1; omega, q1, q2⟩))
      · exact pair_group hm hp hN hr h0 u hx hg J hJ hS.ne_nil (level + 1) (level + 1) level
          (Option.some.inj htb) (ends_levels g hN.num b2 (by
            rintro e ⟨q, q1, q2, rfl⟩
            exact ⟨by show max (level + 1) level = level + 1; omega, q1, q2⟩))

theorem jacInterior_ok {d : Nat} (hd : d ≤ n) {S : List (Nat → Int)} (J : CoeffPair K m p) (hJ : ∀ c, (J c).1.length = (J c).2.length)
    (hS : StencilOK n w (unitDir d) S) :
    ∃ rs E, interiorRegions n h0 ref cells maxL (unitDir d) S (pairFlux u J) = some rs ∧
      jacInterior n h0 L rec ref cells maxL (unitDir d) S J = some E ∧ AsmOK n cells L x rs E := by
  have hlev : ∀ l ∈ cells.levels, l ≤ maxL := by
    intro l hl
    unfold CA.levels at hl
    rw [List.mem_range'_1] at hl
    rcases cells.level_cases with ⟨_, h1, h2⟩ | ⟨h1, _, _, h2, _, _⟩
    · omega
    · obtain ⟨p, hp⟩ := (mem_usedLevels g.leaves.wf (l := cells.maxLevel)).1 (List.mem_filter.2 ⟨by
        unfold CA.levels
        rw [List.mem_range'_1]
        omega, by rw [h2]; rfl⟩)
      have := (g.leaves.between _ _ hp).2
      omega
  obtain ⟨ra, A, a1, a2, a3⟩ := overLevels_asm (n := n) (cells := cells) (L := L) (x := x) cells.levels
    (fun l hl => jacSame_ok hm hp g hN hr h0 u hx hg J hJ (fun k => (unitDir_le d k).2) hS (hlev l hl))
  obtain ⟨rb, B, b1, b2, b3⟩ := overLevels_asm (n := n) (cells := cells) (L := L) (x := x) (List.range' cells.minLevel (cells.maxLevel - cells.minLevel))
    (fun l _ => jacJump_ok hm hp g hN hr h0 u hx hg J hJ (unitDir_le d) (unitDir_axis n d) (unitDir_axis_neg n d) (hS.pos hd) hS l)
  exact ⟨ra ++ rb, A ++ B, by unfold interiorRegions; rw [a1, b1], by unfold jacInterior; rw [a2, b2], a3.append b3⟩

omit hr hg in
theorem jacBdry_ok {d : Nat} (hd : d ≤ n) {S : List (Nat → Int)} (J : CoeffPair K m p) (hJ : ∀ c, (J c).1.length = (J c).2.length)
    (hS : StencilOK n w (unitDir d) S) (hsub : constructSubdomain n cells maxL = some sub) {level : Nat} (hl : level ≤ maxL) :
    ∃ rs E, bdryRegions n h0 ref sub cells (unitDir d) S (pairFlux u J) level = some rs ∧
      jacBdry n h0 L ref sub cells (unitDir d) S J level = some E ∧ AsmOK n cells L x rs E := by
  obtain ⟨⟨fs, a1, a2, a3, a4⟩, fs', b1, b2, b3, b4⟩ := C41_boundary_calls n cells ref dom sub minL maxL w d level S g hd hS hl hsub
  have hta := bdryTasks_flatten (n := n) (ref := ref) (sub := sub) (cells := cells) (dir := unitDir d) (S := S) (level := level)
  have htb := bdryTasksOpp_flatten (n := n) (ref := ref) (sub := sub) (cells := cells) (dir := unitDir d) (S := S) (level := level)
  rw [a1] at hta
  rw [b1] at htb
  cases hea : bdryTasks n ref sub cells (unitDir d) S level with
  | none => rw [hea] at hta; cases hta
  | some ta =>
    cases heb : bdryTasksOpp n ref sub cells (unitDir d) S level with
    | none => rw [heb] at htb; cases htb
    | some tb =>
      rw [hea] at hta
      rw [heb] at htb
      refine ⟨_, _, by unfold bdryRegions; rw [hea, heb], by unfold jacBdry; rw [a1, b1], ?_⟩
      refine AsmOK.append (rs := [_]) (rs' := [_]) ?_ ?_
      · exact bdry_group' hm hp hN h0 u hx (base := fun p => p) hS.ne_nil level (fun c => (J c).1)
          (Option.some.inj hta) fun f hf => ⟨(a4 f hf).1, (a4 f hf).2, leafNum_of g.leaves.wf g.refWF hN.num
            ((a3 _).1 (List.mem_map.2 ⟨f, hf, rfl⟩)).1 (a4 f hf).1⟩
      · exact bdry_group' hm hp hN h0 u hx (base := fun p => shiftPoint (fun k => - unitDir d k) n p) hS.ne_nil level (fun c => (J c).2)
          (Option.some.inj htb) fun f hf => by
            obtain ⟨k1, q, rfl, k2⟩ := b4 f hf
            exact ⟨k1, k2, leafNum_of g.leaves.wf g.refWF hN.num ((b3 _).1 (List.mem_map.2 ⟨f, hf, rfl⟩)).1 k1⟩

/-- The whole scheme. -/
theorem assemblePairs_ok (S : Nat → List (Nat → Int)) (J : Nat → CoeffPair K m p) (hJ : ∀ d ≤ n, ∀ c, (J d c).1.length = (J d c).2.length)
    (hS : ∀ d ≤ n, StencilOK n w (unitDir d) (S d)) (hsub : constructSubdomain n cells maxL = some sub) (bdry : Bool) :
    ∃ E out, assemblePairs n h0 L rec ref sub cells maxL bdry S J = some E ∧
      applyTo n h0 ref sub cells maxL bdry ⟨S, fun d => pairFlux u (J d)⟩ = some out ∧
      (∀ e ∈ E, L.colShift ≤ e.2.1 ∧ e.2.1 < L.colShift + (L.nCells * L.inSize : Nat)) ∧
      (∀ e ∈ E, ∃ (k : Int) (i : Fin p), e.1 = L.row k i ∧ LeafNum n cells k) ∧
      ∀ v : Int, 0 ≤ v → v < L.nCells → ∀ i : Fin p, rowSum E x (L.row v i) = out v i := by
  have hint : ∀ d, ∃ rs E, d ≤ n → interiorRegions n h0 ref cells maxL (cartesianDir d) (S d) (pairFlux u (J d)) = some rs ∧
      jacInterior n h0 L rec ref cells maxL (cartesianDir d) (S d) (J d) = some E ∧ AsmOK n cells L x rs E := by
    intro d
    by_cases hd : d ≤ n
    · obtain ⟨rs, E, h⟩ := jacInterior_ok hm hp g hN hr h0 u hx hg hd (J d) (hJ d hd) (hS d hd)
      exact ⟨rs, E, fun _ => h⟩
    · exact ⟨[], [], fun h => absurd h hd⟩
  have hbd : ∀ d, ∃ rs E, d ≤ n → (if bdry then overLevels (bdryRegions n h0 ref sub cells (cartesianDir d) (S d) (pairFlux u (J d))) cells.usedLevels else some []) = some rs ∧
      (if bdry then overLevels (jacBdry n h0 L ref sub cells (cartesianDir d) (S d) (J d)) cells.usedLevels else some []) = some E ∧ AsmOK n cells L x rs E := by
    intro d
    by_cases hd : d ≤ n
    · cases bdry with
      | false => exact ⟨[], [], fun _ => ⟨rfl, rfl, AsmOK.nil⟩⟩
      | true =>
        obtain ⟨rs, E, h⟩ := overLevels_asm (n := n) (cells := cells) (L := L) (x := x) cells.usedLevels
          (fun l hl => jacBdry_ok (level := l) hm hp g hN h0 u hx hd (J d) (hJ d hd) (hS d hd) hsub (by
            obtain ⟨p, hp⟩ := (mem_usedLevels g.leaves.wf).1 hl
            exact (g.leaves.between _ _ hp).2))
        exact ⟨rs, E, fun _ => h⟩
    · exact ⟨[], [], fun h => absurd h hd⟩
  choose ri Ei hi using hint
  choose rb Eb hb using hbd
  have key : ∀ {α : Type} (f : Nat → Option (List α)) (a : Nat → List α) (ls : List Nat), (∀ d ∈ ls, f d = some (a d)) → overLevels f ls = some (ls.flatMap a) := by
    intro α f a ls
    induction ls with
    | nil => intro _; rfl
    | cons d ls ih =>
      intro h
      unfold overLevels
      rw [h d List.mem_cons_self, ih fun e he => h e (List.mem_cons_of_mem _ he)]
      rfl
  have hle : ∀ d ∈ List.range (n + 1), d ≤ n := fun d hd => by rw [List.mem_range] at hd; omega
  have e1 : overLevels (fun d => jacInterior n h0 L rec ref cells maxL (cartesianDir d) (S d) (J d)) (List.range (n + 1)) = some ((List.range (n + 1)).flatMap Ei) :=
    key _ _ _ fun d hd => (hi d (hle d hd)).2.1
  have e2 : (if bdry then overLevels (fun d => overLevels (jacBdry n h0 L ref sub cells (cartesianDir d) (S d) (J d)) cells.usedLevels) (List.range (n + 1)) else some []) =
      some (if bdry then (List.range (n + 1)).flatMap Eb else []) := by
    cases bdry with
    | false => rfl
    | true => exact key _ _ _ fun d hd => (hb d (hle d hd)).2.1
  have e3 : schemeRegions n h0 ref sub cells maxL bdry ⟨S, fun d => pairFlux u (J d)⟩ = some ((List.range (n + 1)).flatMap fun d => ri d ++ rb d) :=
    key _ _ _ fun d hd => by
      unfold directionRegions
      simp only []
      rw [(hi d (hle d hd)).1, (hb d (hle d hd)).1]
  have ok : ∀ ls : List Nat, (∀ d ∈ ls, d ≤ n) → AsmOK n cells L x (ls.flatMap fun d => ri d ++ rb d) (ls.flatMap fun d => Ei d ++ Eb d) := by
    intro ls
    induction ls with
    | nil => intro _; exact AsmOK.nil
    | cons d ls ih =>
      intro h
      rw [List.flatMap_cons, List.flatMap_cons]
      exact (((hi d (h d List.mem_cons_self)).2.2).append (hb d (h d List.mem_cons_self)).2.2).append (ih fun e he => h e (List.mem_cons_of_mem _ he))
  have hE := ok _ hle
  have hbn : bdry = false → ∀ d ≤ n, Eb d = [] := by
    rintro rfl d hd
    have := (hb d hd).2.1
    rw [if_neg (by simp)] at this
    exact (Option.some.inj this).symm
  have hperm : ((List.range (n + 1)).flatMap Ei ++ if bdry then (List.range (n + 1)).flatMap Eb else []).Perm ((List.range (n + 1)).flatMap fun d => Ei d ++ Eb d) := by
    have : ∀ ls : List Nat, (∀ d ∈ ls, d ≤ n) → (ls.flatMap Ei ++ if bdry then ls.flatMap Eb else []).Perm (ls.flatMap fun d => Ei d ++ Eb d) := by
      intro ls
      induction ls with
      | nil => intro _; cases bdry <;> exact List.Perm.refl _
      | cons d ls ih =>
        intro h
        have ih := ih fun e he => h e (List.mem_cons_of_mem _ he)
        cases bdry with
        | false =>
          simp only [Bool.false_eq_true, if_false, List.append_nil, List.flatMap_cons] at ih ⊢
          rw [hbn rfl d (h d List.mem_cons_self), List.append_nil]
          exact ih.append_left _
        | true =>
          simp only [if_true, List.flatMap_cons] at ih ⊢
          rw [List.append_assoc, List.append_assoc]
          refine List.Perm.append_left _ ?_
          refine List.Perm.trans ?_ (ih.append_left (Eb d))
          rw [← List.append_assoc, ← List.append_assoc]
          exact List.perm_append_comm.append_right _
    exact this _ hle
  refine ⟨_, _, by unfold assemblePairs; rw [e1, e2], by unfold applyTo; rw [e3]; rfl, fun e he => hE.cols e (hperm.mem_iff.1 he),
    fun e he => hE.rows e (hperm.mem_iff.1 he), fun v h0v h1v i => ?_⟩
  have hs : ∀ {a b : List (MatEntry K)}, a.Perm b → rowSum a x (L.row v i) = rowSum b x (L.row v i) := fun h => (h.map _).sum_eq
  rw [hs hperm, hE.sum v h0v h1v i]
  show _ = List.foldl Region.run (fun _ => 0) ((List.range (n + 1)).flatMap fun d => ri d ++ rb d) v i
  rw [foldl_run, foldl_addTo]
  simp

end

section
variable (hr : ∀ e ∈ rec, ∀ t ∈ e.2, (0 ≤ t.1 ∧ t.1 < L.nCells) ∧ rec.find t.1 = none) (hN : ∀ l q k, (l, q, k) ∈ ref.numbered n → 0 ≤ k ∧ k < L.nCells)
  (g : FVMesh n cells ref dom minL maxL w)
include hr hN g

theorem jacInterior_free {h0 : K} {d : Nat} (hd : d ≤ n) {S : List (Nat → Int)} (hS : StencilOK n w (unitDir d) S)
    {J : CoeffPair K m p} {E : List (MatEntry K)}
    (h : jacInterior n h0 L rec ref cells maxL (unitDir d) S J = some E) : FreeCols L rec m E := by
  unfold jacInterior at h
  cases h1 : overLevels (jacSame n h0 L rec ref cells (unitDir d) S J) cells.levels with
  | none => rw [h1] at h; simp at h
  | some a =>
    cases h2 : overLevels (jacJump n h0 L rec ref cells maxL (unitDir d) S J) (List.range' cells.minLevel (cells.maxLevel - cells.minLevel)) with
    | none => rw [h1, h2] at h; simp at h
    | some b =>
      rw [h1, h2] at h
      cases h
      refine (overLevels_free _ _ (fun l hl E hE => ?_) h1).append (overLevels_free _ _ (fun l _ E hE => ?_) h2)
      · obtain ⟨fs, j1, j2⟩ := g.sameOK (fun k => (unitDir_le d k).2) hS (g.levels_le l hl)
        unfold jacSame at hE
        rw [j1] at hE
        cases hE
        exact FreeCols.flatMap fun f hf => faceEntries_free hr hN _ _ (j2.right f hf)
      · obtain ⟨a, a1, a2⟩ := g.jumpOK (fun k => (unitDir_le d k).2) (unitDir_axis n d) (hS.pos hd) hS l
        obtain ⟨b, b1, b2⟩ := g.oppOK (fun k => (unitDir_le d k).1) (unitDir_axis_neg n d) (hS.pos hd) hS l
        unfold jacJump at hE
        rw [a1, b1] at hE
        cases hE
        exact (FreeCols.flatMap fun f hf => faceEntries_free hr hN _ _ (a2.right f hf)).append (FreeCols.flatMap fun f hf => faceEntries_free hr hN _ _ (b2.right f hf))

theorem assemblePairs_free {h0 : K} {S : Nat → List (Nat → Int)} (hS : ∀ d ≤ n, StencilOK n w (unitDir d) (S d))
    {J : Nat → CoeffPair K m p} {E : List (MatEntry K)}
    (h : assemblePairs n h0 L rec ref sub cells maxL false S J = some E) : FreeCols L rec m E := by
  unfold assemblePairs at h
  simp only [Bool.false_eq_true, if_false] at h
  cases h1 : overLevels (fun d => jacInterior n h0 L rec ref cells maxL (cartesianDir d) (S d) (J d)) (List.range (n + 1)) with
  | none => rw [h1] at h; simp at h
  | some a =>
    rw [h1] at h
    cases h
    refine (overLevels_free _ _ (fun d hd E hE => ?_) h1).append fun e he => by simp at he
    have hd' : d ≤ n := by have := List.mem_range.1 hd; omega
    exact jacInterior_free hr hN g hd' (hS d hd') hE

end

variable {order : Nat} {cag : CA}

theorem ElimMesh.assemblePairs_free (g : ElimMesh n order cells cag ref dom minL maxL w) (hr : ∀ e ∈ rec, ∀ t ∈ e.2, (0 ≤ t.1 ∧ t.1 < L.nCells) ∧ rec.find t.1 = none)
    (hN : ∀ l q k, (l, q, k) ∈ ref.numbered n → 0 ≤ k ∧ k < L.nCells)
    (hkey : ∀ l q k, (l, q, k) ∈ ref.numbered n → ¬ ProjGhost n cells cag l q → ¬ PredGhost n cells cag l q → rec.find k = none)
    (hsub : constructSubdomain n cells maxL = some sub) {h0 : K} {S : Nat → List (Nat → Int)}
    (hS : ∀ d ≤ n, StencilOK n w (unitDir d) (S d)) (h2 : ∀ d ≤ n, TwoPoint n (unitDir d) (S d))
    {J : Nat → CoeffPair K m p} {E : List (MatEntry K)}
    (h : assemblePairs n h0 L rec ref sub cells maxL true S J = some E) : FreeCols L rec m E := by
  unfold assemblePairs at h
  rw [if_pos rfl] at h
  cases h1 : overLevels (fun d => jacInterior n h0 L rec ref cells maxL (cartesianDir d) (S d) (J d)) (List.range (n + 1)) with
  | none => rw [h1] at h; simp at h
  | some a =>
    cases hb : overLevels (fun d => overLevels (jacBdry n h0 L ref sub cells (cartesianDir d) (S d) (J d)) cells.usedLevels) (List.range (n + 1)) with
    | none => rw [h1, hb] at h; simp at h
    | some b =>
      rw [h1, hb] at h
      cases h
      refine (overLevels_free _ _ (fun d hd E hE => ?_) h1).append (overLevels_free _ _ (fun d hd E hE => ?_) hb)
      · have hd' : d ≤ n := by have := List.mem_range.1 hd; omega
        exact jacInterior_free hr hN g.fv hd' (hS d hd') hE
      · have hd' : d ≤ n := by have := List.mem_range.1 hd; omega
        refine overLevels_free _ _ (fun l hl E hE => ?_) hE
        obtain ⟨p0, hp0⟩ := (mem_usedLevels g.fv.leaves.wf).1 hl
        have hlm := (g.fv.leaves.between _ _ hp0).2
        obtain ⟨⟨fs, a1, -, a3, a4⟩, fs', b1, -, b3, b4⟩ := C41_boundary_calls n cells ref dom sub minL maxL w d l (S d) g.fv hd' (hS d hd') hlm hsub
        have hcell : ∀ {q : List Int} {c : MCell}, CellIs n ref l q c → cells.Mem n l q ∨ OutDomain n dom maxL l q →
            (0 ≤ c.index ∧ c.index < L.nCells) ∧ rec.find c.index = none := by
          intro q c hc h
          refine ⟨hN _ _ _ hc.2.2, ?_⟩
          rcases h with h | h
          · exact hkey _ _ _ hc.2.2 (g.leaf_proj h) (g.leaf_pred h)
          · exact hkey _ _ _ hc.2.2 (g.outside hlm h).2.1 (g.outside hlm h).2.2
        have hE' : jacBdry n h0 L ref sub cells (unitDir d) (S d) (J d) l = some E := hE
        unfold jacBdry at hE'
        rw [a1, b1] at hE'
        cases hE'
        refine (FreeCols.flatMap fun f hf => bdryEntries_free fun c hc => ?_).append (FreeCols.flatMap fun f hf => bdryEntries_free fun c hc => ?_)
        · obtain ⟨s, hs, hcs⟩ := forall₂_mem (a4 f hf).2 hc
          obtain ⟨k1, k2⟩ := (a3 _).1 (List.mem_map.2 ⟨f, hf, rfl⟩)
          rcases h2 d hd' s hs with h | h
          · rw [shift_congr (s := s) (t := fun _ => 0) _ _ h, shift_zero] at hcs
            exact hcell hcs (Or.inl k1)
          · rw [shift_congr (s := s) (t := unitDir d) _ _ h] at hcs
            exact hcell hcs (Or.inr k2)
        · obtain ⟨-, q, rfl, k3⟩ := b4 f hf
          obtain ⟨s, hs, hcs⟩ := forall₂_mem k3 hc
          obtain ⟨k1, k2⟩ := (b3 _).1 (List.mem_map.2 ⟨f, hf, rfl⟩)
          rcases h2 d hd' s hs with h | h
          · rw [shift_congr (s := s) (t := fun _ => 0) _ _ h, shift_zero] at hcs
            exact hcell hcs (Or.inr k2)
          · rw [shift_congr (s := s) (t := unitDir d) _ _ h, shift_shift] at hcs
            have : (fun k => - unitDir d k + unitDir d k) = fun _ : Nat => (0 : Int) := by funext k; ring
            rw [this, shift_zero] at hcs
            exact hcell hcs (Or.inl k1)

end

end Samurai

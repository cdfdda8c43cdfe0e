import Verif.Lemmas.Flux

namespace Samurai

/-! ### boundary -/

section
variable {n : Nat} {cells ref : CA} {dom sub : LCA} {minL maxL w : Nat}

/-- Boundary calls whose cells are given by a predicate. -/
structure BdryOK (n : Nat) (ref : CA) (S : List (Nat → Int)) (base : List Int → List Int) (P : Nat × List Int → Prop) (bs : List BdryCall) : Prop where
  nodup : (bs.map fun f => f.cell.id).Nodup
  mem : ∀ e, e ∈ (bs.map fun f => f.cell.id) ↔ P e
  right : ∀ f ∈ bs, CellIs n ref f.cell.level f.cell.pt f.cell ∧
    List.Forall₂ (fun s c => CellIs n ref f.cell.level (shiftPoint s n (base f.cell.pt)) c) S f.comput

theorem BdryOK.append {S : List (Nat → Int)} {base : List Int → List Int} {P Q : Nat × List Int → Prop} {a b : List BdryCall}
    (h1 : BdryOK n ref S base P a) (h2 : BdryOK n ref S base Q b) (hd : ∀ e, P e → Q e → False) :
    BdryOK n ref S base (fun e => P e ∨ Q e) (a ++ b) := by
  refine ⟨?_, fun e => ?_, fun f hf => ?_⟩
  · rw [List.map_append, List.nodup_append]
    refine ⟨h1.nodup, h2.nodup, fun a ha b hb hab => ?_⟩
    subst hab
    exact hd a ((h1.mem a).1 ha) ((h2.mem a).1 hb)
  · rw [List.map_append, List.mem_append, h1.mem, h2.mem]
  · rcases List.mem_append.1 hf with hf | hf
    · exact h1.right f hf
    · exact h2.right f hf

theorem bdryOK_nil {S : List (Nat → Int)} {base : List Int → List Int} {P : Nat × List Int → Prop} (h : ∀ e, ¬ P e) :
    BdryOK n ref S base P [] := ⟨List.nodup_nil, fun e => by simp [h e], fun f hf => by simp at hf⟩

/-- The number of a cell determines the cell. -/
theorem number_inj (h : ((ref.numbered n).map fun e => e.2.2).Nodup) {l l' : Nat} {p p' : List Int} {v : Int}
    (h1 : (l, p, v) ∈ ref.numbered n) (h2 : (l', p', v) ∈ ref.numbered n) : l = l' ∧ p = p' := by
  have := List.inj_on_of_nodup_map h h1 h2 rfl
  simp only [Prod.mk.injEq] at this
  exact ⟨this.1, this.2.1⟩

theorem BdryOK.numbers {S : List (Nat → Int)} {base : List Int → List Int} {P : Nat × List Int → Prop} {bs : List BdryCall}
    (hnum : ((ref.numbered n).map fun e => e.2.2).Nodup) (h : BdryOK n ref S base P bs) : (bs.map fun f => f.cell.index).Nodup := by
  have h1 := h.nodup
  have h2 := h.right
  clear h
  induction bs with
  | nil => exact List.nodup_nil
  | cons b bs ih =>
    rw [List.map_cons, List.nodup_cons] at h1 ⊢
    refine ⟨fun hm => h1.1 ?_, ih h1.2 fun f hf => h2 f (List.mem_cons_of_mem _ hf)⟩
    obtain ⟨f, hf, he⟩ := List.mem_map.1 hm
    have k1 := (h2 b List.mem_cons_self).1.2.2
    have k2 := (h2 f (List.mem_cons_of_mem _ hf)).1.2.2
    rw [he] at k2
    obtain ⟨e1, e2⟩ := number_inj hnum k1 k2
    refine List.mem_map.2 ⟨f, hf, ?_⟩
    unfold MCell.id
    rw [e1, e2]

variable {K V : Type} [Field K] [AddCommGroup V] [Module K V]

/-- Regions that treat the boundary interfaces of a direction and of the opposite direction. -/
structure BdryRegionsOK (n : Nat) (h0 : K) (ref cells : CA) (dom : LCA) (maxL : Nat) (dir : Nat → Int) (S : List (Nat → Int))
    (F : List MCell → V × V) (L : Nat → Prop) (rs : List (Region V)) (bs bs' : List BdryCall) : Prop where
  pos : BdryOK n ref S (fun p => p) (fun e => L e.1 ∧ cells.Mem n e.1 e.2 ∧ Outside n dom maxL e.1 (shiftPoint dir n e.2)) bs
  neg : BdryOK n ref S (fun p => shiftPoint (fun k => - dir k) n p)
    (fun e => L e.1 ∧ cells.Mem n e.1 e.2 ∧ Outside n dom maxL e.1 (shiftPoint (fun k => - dir k) n e.2)) bs'
  upds : (regionUpds rs).Perm (bs.map (stdBdry n h0 fun c => (F c).1) ++ bs'.map (stdBdry n h0 fun c => (F c).2))
  nodup : ∀ r ∈ rs, (r.tasks.flatten.map Prod.fst).Nodup

theorem flatten_map_map {α β : Type} (g : α → β) (ts : List (List α)) : (ts.map fun t => t.map g).flatten = ts.flatten.map g := by
  induction ts with
  | nil => rfl
  | cons t ts ih => rw [List.map_cons, List.flatten_cons, List.flatten_cons, List.map_append, ih]

theorem bdryRegion_upds (n : Nat) (h0 : K) (F : List MCell → V) (level : Nat) {ts : List (List BdryCall)} {fs : List BdryCall} (h : ts.flatten = fs)
    (hlev : ∀ f ∈ fs, f.cell.level = level) : (bdryRegion n h0 F level ts).tasks.flatten = fs.map (stdBdry n h0 F) := by
  show (ts.map fun t => t.map fun f => (f.cell.index, contribution n (F f.comput) (cellLength h0 level) (cellLength h0 level))).flatten = _
  rw [flatten_map_map, h]
  refine List.map_congr_left fun f hf => ?_
  unfold stdBdry
  rw [hlev f hf]

theorem FVMesh.bdryRegions (g : FVMesh n cells ref dom minL maxL w) (hnum : FVNumbers n cells ref) (h0 : K) {d : Nat} (hd : d ≤ n)
    {S : List (Nat → Int)} (F : List MCell → V × V) (hS : StencilOK n w (unitDir d) S) (hsub : constructSubdomain n cells maxL = some sub)
    {level : Nat} (hl : level ≤ maxL) :
    ∃ rs bs bs', Samurai.bdryRegions n h0 ref sub cells (unitDir d) S F level = some rs ∧
      BdryRegionsOK n h0 ref cells dom maxL (unitDir d) S F (fun l => l = level) rs bs bs' := by
  obtain ⟨⟨fs, a1, a2, a3, a4⟩, fs', b1, b2, b3, b4⟩ := C41_boundary_calls n cells ref dom sub minL maxL w d level S g hd hS hl hsub
  have hta := bdryTasks_flatten (n := n) (ref := ref) (sub := sub) (cells := cells) (dir := unitDir d) (S := S) (level := level)
  have htb := bdryTasksOpp_flatten (n := n) (ref := ref) (sub := sub) (cells := cells) (dir := unitDir d) (S := S) (level := level)
  rw [a1] at hta
  rw [b1] at htb
  cases hea : bdryTasks n ref sub cells (unitDir d) S level with
  | none => rw [hea] at hta; cases hta
  | some ta =>
    cases heb : bdryTasksOpp n ref sub cells (unitDir d) S level with
    | none => rw [heb] at htb; cases htb
    | some tb =>
      rw [hea] at hta
      rw [heb] at htb
      have ids : ∀ {gs : List BdryCall}, (∀ f ∈ gs, f.cell.level = level) → (gs.map fun f => f.cell.id) = (gs.map fun f => f.cell.pt).map fun p => (level, p) := by
        intro gs hg
        rw [List.map_map]
        refine List.map_congr_left fun f hf => ?_
        show (f.cell.level, f.cell.pt) = (level, f.cell.pt)
        rw [hg f hf]
      have la : ∀ f ∈ fs, f.cell.level = level := fun f hf => (a4 f hf).1.1
      have lb : ∀ f ∈ fs', f.cell.level = level := fun f hf => (b4 f hf).1.1
      have hinj : Function.Injective fun p : List Int => (level, p) := fun a b h => by simpa using h
      have pos : BdryOK n ref S (fun p => p)
          (fun e => e.1 = level ∧ cells.Mem n e.1 e.2 ∧ Outside n dom maxL e.1 (shiftPoint (unitDir d) n e.2)) fs := by
        refine ⟨by rw [ids la]; exact a2.map hinj, fun e => ?_, fun f hf => ?_⟩
        · rw [ids la, List.mem_map]
          obtain ⟨l, p⟩ := e
          constructor
          · rintro ⟨q, hq, he⟩
            injection he with e1 e2
            subst e1 e2
            exact ⟨rfl, (a3 _).1 hq⟩
          · rintro ⟨rfl, h⟩
            exact ⟨p, (a3 _).2 h, rfl⟩
        · rw [la f hf]; exact a4 f hf
      have neg : BdryOK n ref S (fun p => shiftPoint (fun k => - unitDir d k) n p)
          (fun e => e.1 = level ∧ cells.Mem n e.1 e.2 ∧ Outside n dom maxL e.1 (shiftPoint (fun k => - unitDir d k) n e.2)) fs' := by
        refine ⟨by rw [ids lb]; exact b2.map hinj, fun e => ?_, fun f hf => ?_⟩
        · rw [ids lb, List.mem_map]
          obtain ⟨l, p⟩ := e
          constructor
          · rintro ⟨q, hq, he⟩
            injection he with e1 e2
            subst e1 e2
            exact ⟨rfl, (b3 _).1 hq⟩
          · rintro ⟨rfl, h⟩
            exact ⟨p, (b3 _).2 h, rfl⟩
        · rw [lb f hf]
          obtain ⟨k1, q, rfl, k2⟩ := b4 f hf
          exact ⟨k1, k2⟩
      have ua := bdryRegion_upds n h0 (fun c => (F c).1) level (Option.some.inj hta) la
      have ub := bdryRegion_upds n h0 (fun c => (F c).2) level (Option.some.inj htb) lb
      refine ⟨_, fs, fs', by unfold Samurai.bdryRegions; rw [hea, heb], pos, neg, ?_, ?_⟩
      · unfold regionUpds
        rw [List.flatMap_cons, List.flatMap_cons, List.flatMap_nil, List.append_nil, ua, ub]
      · intro r hr
        simp only [List.mem_cons, List.not_mem_nil, or_false] at hr
        rcases hr with rfl | rfl
        · rw [ua, List.map_map]
          exact pos.numbers hnum.distinct
        · rw [ub, List.map_map]
          exact neg.numbers hnum.distinct

theorem overLevels_bdry {h0 : K} {dir : Nat → Int} {S : List (Nat → Int)} {F : List MCell → V × V} {f : Nat → Option (List (Region V))} :
    ∀ ls : List Nat, ls.Nodup → (∀ l ∈ ls, ∃ rs bs bs', f l = some rs ∧ BdryRegionsOK n h0 ref cells dom maxL dir S F (fun k => k = l) rs bs bs') →
      ∃ rs bs bs', overLevels f ls = some rs ∧ BdryRegionsOK n h0 ref cells dom maxL dir S F (fun k => k ∈ ls) rs bs bs' := by
  intro ls
  induction ls with
  | nil =>
    intro _ _
    exact ⟨[], [], [], rfl, bdryOK_nil (by simp), bdryOK_nil (by simp), List.Perm.refl _, by simp⟩
  | cons l ls ih =>
    intro hnd h
    rw [List.nodup_cons] at hnd
    obtain ⟨a, b, b', a1, a2⟩ := h l (by simp)
    obtain ⟨c, e, e', c1, c2⟩ := ih hnd.2 fun l' hl' => h l' (List.mem_cons_of_mem _ hl')
    have hdisj : ∀ x : Nat × List Int, x.1 = l → x.1 ∈ ls → False := fun x h1 h2 => hnd.1 (h1 ▸ h2)
    have p1 := a2.pos.append c2.pos (fun x h1 h2 => hdisj x h1.1 h2.1)
    have p2 := a2.neg.append c2.neg (fun x h1 h2 => hdisj x h1.1 h2.1)
    refine ⟨a ++ c, b ++ e, b' ++ e', by unfold overLevels; rw [a1, c1], ⟨p1.nodup, fun x => (p1.mem x).trans ?_, p1.right⟩,
      ⟨p2.nodup, fun x => (p2.mem x).trans ?_, p2.right⟩, ?_, fun r hr => ?_⟩
    · simp only [List.mem_cons]; tauto
    · simp only [List.mem_cons]; tauto
    · rw [regionUpds_append, List.map_append, List.map_append]
      refine (a2.upds.append c2.upds).trans ?_
      rw [List.append_assoc, List.append_assoc]
      refine List.Perm.append_left _ ?_
      rw [← List.append_assoc, ← List.append_assoc]
      exact List.perm_append_comm.append_right _
    · rcases List.mem_append.1 hr with hr | hr
      · exact a2.nodup r hr
      · exact c2.nodup r hr

/-! ### the scheme -/

/-- What is known about one direction of a scheme. -/
structure DirOK (n : Nat) (h0 : K) (ref cells : CA) (dom : LCA) (maxL : Nat) (bdry : Bool) (dir : Nat → Int) (S : List (Nat → Int))
    (F : List MCell → V × V) (rs : List (Region V)) (fs : List FaceCall) (bs bs' : List BdryCall) : Prop where
  interior : IsInterior n ref cells dir S fs
  pos : IsBoundary n ref cells dom maxL dir S (fun p => p) bs
  neg : IsBoundary n ref cells dom maxL (fun k => - dir k) S (fun p => shiftPoint (fun k => - dir k) n p) bs'
  upds : (regionUpds rs).Perm (fs.flatMap (stdUpds n h0 F) ++
    if bdry then bs.map (stdBdry n h0 fun c => (F c).1) ++ bs'.map (stdBdry n h0 fun c => (F c).2) else [])
  race : ∀ r ∈ rs, r.atomic = false → (r.tasks.flatten.map Prod.fst).Nodup

theorem FVMesh.directionRegions (g : FVMesh n cells ref dom minL maxL w) (hnum : FVNumbers n cells ref) (h0 : K) {d : Nat} (hd : d ≤ n)
    (fd : FluxDef V) (hS : StencilOK n w (unitDir d) (fd.stencil d)) (hsub : constructSubdomain n cells maxL = some sub) (bdry : Bool) :
    ∃ rs fs bs bs', Samurai.directionRegions n h0 ref sub cells maxL bdry fd d (cartesianDir d) = some rs ∧
      DirOK n h0 ref cells dom maxL bdry (unitDir d) (fd.stencil d) (fd.flux d) rs fs bs bs' := by
  obtain ⟨ra, fs, a1, a2⟩ := g.interiorRegions h0 hd (fd.flux d) hS
  obtain ⟨rb, bs, bs', b1, b2⟩ := overLevels_bdry (f := Samurai.bdryRegions n h0 ref sub cells (unitDir d) (fd.stencil d) (fd.flux d))
    cells.usedLevels (usedLevels_nodup cells) (fun l hl => g.bdryRegions hnum h0 hd (fd.flux d) hS hsub (by
      obtain ⟨p, hp⟩ := (mem_usedLevels g.leaves.wf).1 hl
      exact (g.leaves.between _ _ hp).2))
  have hu : ∀ {l : Nat} {p : List Int}, cells.Mem n l p → l ∈ cells.usedLevels := fun hp => (mem_usedLevels g.leaves.wf).2 ⟨_, hp⟩
  have hi : IsInterior n ref cells (unitDir d) (fd.stencil d) fs := ⟨a2.faces.nodup, fun a b => a2.faces.mem (a, b), a2.faces.right⟩
  have hp : IsBoundary n ref cells dom maxL (unitDir d) (fd.stencil d) (fun p => p) bs :=
    ⟨b2.pos.nodup, fun l p => (b2.pos.mem (l, p)).trans ⟨fun h => h.2, fun h => ⟨hu h.1, h⟩⟩, b2.pos.right⟩
  have hn : IsBoundary n ref cells dom maxL (fun k => - unitDir d k) (fd.stencil d) (fun p => shiftPoint (fun k => - unitDir d k) n p) bs' :=
    ⟨b2.neg.nodup, fun l p => (b2.neg.mem (l, p)).trans ⟨fun h => h.2, fun h => ⟨hu h.1, h⟩⟩, b2.neg.right⟩
  have hc : cartesianDir d = unitDir d := rfl
  cases bdry with
  | true =>
    refine ⟨ra ++ rb, fs, bs, bs', ?_, hi, hp, hn, ?_, fun r hr ha => ?_⟩
    · unfold Samurai.directionRegions
      rw [hc, a1, if_pos rfl, b1]
    · rw [regionUpds_append, a2.upds, if_pos rfl]
      exact b2.upds.append_left _
    · rcases List.mem_append.1 hr with hr | hr
      · rw [a2.atomic r hr] at ha; cases ha
      · exact b2.nodup r hr
  | false =>
    refine ⟨ra ++ [], fs, bs, bs', ?_, hi, hp, hn, ?_, fun r hr ha => ?_⟩
    · unfold Samurai.directionRegions
      rw [hc, a1, if_neg (by simp)]
    · rw [List.append_nil, a2.upds, if_neg (by simp), List.append_nil]
    · rw [List.append_nil] at hr
      rw [a2.atomic r hr] at ha; cases ha

/-- The regions of the whole scheme: one list of calls per direction. -/
theorem FVMesh.schemeRegions (g : FVMesh n cells ref dom minL maxL w) (hnum : FVNumbers n cells ref) (h0 : K)
    (fd : FluxDef V) (hS : ∀ d ≤ n, StencilOK n w (unitDir d) (fd.stencil d)) (hsub : constructSubdomain n cells maxL = some sub) (bdry : Bool) :
    ∃ (rs : Nat → List (Region V)) (fs : Nat → List FaceCall) (bs bs' : Nat → List BdryCall),
      Samurai.schemeRegions n h0 ref sub cells maxL bdry fd = some ((List.range (n + 1)).flatMap rs) ∧
      ∀ d ≤ n, DirOK n h0 ref cells dom maxL bdry (unitDir d) (fd.stencil d) (fd.flux d) (rs d) (fs d) (bs d) (bs' d) := by
  have h : ∀ d, ∃ rs fs bs bs', d ≤ n → Samurai.directionRegions n h0 ref sub cells maxL bdry fd d (cartesianDir d) = some rs ∧
      DirOK n h0 ref cells dom maxL bdry (unitDir d) (fd.stencil d) (fd.flux d) rs fs bs bs' := by
    intro d
    by_cases hd : d ≤ n
    · obtain ⟨rs, fs, bs, bs', h⟩ := g.directionRegions hnum h0 hd fd (hS d hd) hsub bdry
      exact ⟨rs, fs, bs, bs', fun _ => h⟩
    · exact ⟨[], [], [], [], fun h => absurd h hd⟩
  choose rs fs bs bs' h using h
  refine ⟨rs, fs, bs, bs', ?_, fun d hd => (h d hd).2⟩
  unfold Samurai.schemeRegions
  have key : ∀ ls : List Nat, (∀ d ∈ ls, d ≤ n) →
      overLevels (fun d => Samurai.directionRegions n h0 ref sub cells maxL bdry fd d (cartesianDir d)) ls = some (ls.flatMap rs) := by
    intro ls
    induction ls with
    | nil => intro _; rfl
    | cons d ls ih =>
      intro hls
      unfold overLevels
      rw [(h d (hls d List.mem_cons_self)).1, ih fun e he => hls e (List.mem_cons_of_mem _ he)]
      rfl
  exact key _ fun d hd => by rw [List.mem_range] at hd; omega

end

end Samurai

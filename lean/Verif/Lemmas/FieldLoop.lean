/-
Lemmas for C119: the time loops.
-/
import Verif.Lemmas.FieldLife

namespace Samurai.FieldLife

variable {C K B : Type} [DecidableEq C] [Zero K]

/-- `val` is known of the field `u`, and `w` is a field of the same mesh object `m`. -/
structure LoopInv (u w m : Nat) (A : Maps C K B) (p : MeshVal C × (C → Option K)) : Prop where
  mesh : A.meshes m = some p.1
  good : p.1.Good
  u : ∃ a val, A.fields u = some a ∧ a.mesh = m ∧ a.val = some val ∧ ∀ c v, p.2 c = some v → val c = some v
  w : ∃ b, A.fields w = some b ∧ b.mesh = m

theorem meaning_append (A : Maps C K B) (p q : List (FieldOp C K B)) : meaning A (p ++ q) = (meaning A p).bind fun A' => meaning A' q := by
  simp only [meaning, List.foldlM_append]
  rfl

theorem meaning_cons (A : Maps C K B) (o : FieldOp C K B) (q : List (FieldOp C K B)) :
    meaning A (o :: q) = (mean A o).bind fun A' => meaning A' q := by
  simp only [meaning, List.foldlM_cons]
  rfl

theorem mapM_map_eq {α β γ : Type} (f : β → Option γ) (g : α → β) : ∀ l : List α, (l.map g).mapM f = l.mapM fun a => f (g a)
  | [] => rfl
  | a :: l => by rw [List.map_cons, List.mapM_cons, List.mapM_cons, mapM_map_eq f g l]

omit [DecidableEq C] [Zero K] in
theorem value_of {A : Maps C K B} {u : Nat} {a : FieldMap C K B} {val : C → Option K} (ha : A.fields u = some a) (hv : a.val = some val) (c : C) :
    A.value u c = val c := by
  simp [Maps.value, ha, hv]

omit [DecidableEq C] [Zero K] in
theorem fields_setField_self (A : Maps C K B) (g : Nat) (b : FieldMap C K B) : (A.setField g b).fields g = some b := if_pos rfl

/-- The ghosts of `u`. -/
theorem loop_ghosts {u w m : Nat} (huw : w ≠ u) : ∀ (gs : List (C × List C × (List K → K))) (A : Maps C K B) (p : MeshVal C × (C → Option K)),
    LoopInv u w m A p → ∀ v, ghostFill p.1.cells p.2 gs = some v →
    ∃ A', meaning A (gs.map fun g => FieldOp.set u g.1 (g.2.1.map fun c => (u, c)) g.2.2) = some A' ∧ LoopInv u w m A' (p.1, v)
  | [], A, p, h, v, hv => by
    obtain rfl : p.2 = v := Option.some.inj hv
    exact ⟨A, rfl, h⟩
  | g :: gs, A, p, h, v, hv => by
    simp only [ghostFill, List.foldlM_cons] at hv
    split at hv
    · rename_i hc
      cases hr : g.2.1.mapM p.2 with
      | none => rw [hr] at hv; simp at hv
      | some vs =>
        rw [hr, Option.map_some] at hv
        obtain ⟨a, val, ha, ham, hval, hle⟩ := h.u
        obtain ⟨b, hb, hbm⟩ := h.w
        have hr' : ((g.2.1.map fun c => (u, c)).mapM fun r : Nat × C => A.value r.1 r.2) = some vs := by
          rw [mapM_map_eq]
          exact mapM_some_of (fun c _ x hx => by rw [value_of ha hval]; exact hle c x hx) hr
        have hmean : mean A (FieldOp.set u g.1 (g.2.1.map fun c => (u, c)) g.2.2) =
            some (A.setField u { a with val := some fun c' => if c' = g.1 then some (g.2.2 vs) else val c' }) := by
          simp only [mean, hr', ha, ham, h.mesh, hval, Option.bind_some, hc, if_true]
        have hinv : LoopInv u w m (A.setField u { a with val := some fun c' => if c' = g.1 then some (g.2.2 vs) else val c' })
            (p.1, fun c => if c = g.1 then some (g.2.2 vs) else p.2 c) := by
          refine ⟨h.mesh, h.good, ⟨_, _, fields_setField_self _ _ _, ham, rfl, ?_⟩, ⟨b, ?_, hbm⟩⟩
          · intro c x hx
            dsimp only at hx ⊢
            split at hx
            · rename_i e; simpa [e] using hx
            · rename_i e; simpa [e] using hle c x hx
          · show (if w = u then _ else _) = _
            rw [if_neg huw]; exact hb
        obtain ⟨A', hA', hI⟩ := loop_ghosts huw gs _ (p.1, _) hinv v hv
        refine ⟨A', ?_, hI⟩
        rw [List.map_cons, meaning_cons, hmean, Option.bind_some]
        exact hA'
    · cases hv

/-- The scheme on the leaves. -/
theorem loop_scheme {u w m : Nat} (huw : u ≠ w) {M : MeshVal C} (reads : C → List C) (F : C → List K → K) (known : C → Option K) :
    ∀ (todo done : List C) (A : Maps C K B), A.meshes m = some M → (∀ c ∈ todo, c ∈ M.cells) → (∀ c ∈ todo, ((reads c).mapM known).isSome) →
      (∃ a val, A.fields u = some a ∧ a.mesh = m ∧ a.val = some val ∧ ∀ c v, known c = some v → val c = some v) →
      (∃ b val, A.fields w = some b ∧ b.mesh = m ∧ b.val = some val ∧ ∀ c ∈ done, val c = ((reads c).mapM known).map (F c)) →
      ∃ A', meaning A (todo.map fun c => FieldOp.set w c ((reads c).map fun c' => (u, c')) (F c)) = some A' ∧ A'.meshes = A.meshes ∧
        A'.fields u = A.fields u ∧
        ∃ b val, A'.fields w = some b ∧ b.mesh = m ∧ b.val = some val ∧ ∀ c ∈ done ++ todo, val c = ((reads c).mapM known).map (F c)
  | [], done, A, _, _, _, _, hw => ⟨A, rfl, rfl, rfl, by simpa using hw⟩
  | c :: todo, done, A, hM, hc, hs, hu, hw => by
    obtain ⟨a, val, ha, ham, hval, hle⟩ := hu
    obtain ⟨b, wal, hb, hbm, hwal, hdone⟩ := hw
    obtain ⟨vs, hvs⟩ := Option.isSome_iff_exists.mp (hs c (by simp))
    have hr' : (((reads c).map fun c' => (u, c')).mapM fun r : Nat × C => A.value r.1 r.2) = some vs := by
      rw [mapM_map_eq]
      exact mapM_some_of (fun c' _ x hx => by rw [value_of ha hval]; exact hle c' x hx) hvs
    have hmean : mean A (FieldOp.set w c ((reads c).map fun c' => (u, c')) (F c)) =
        some (A.setField w { b with val := some fun c' => if c' = c then some (F c vs) else wal c' }) := by
      simp only [mean, hr', hb, hbm, hM, hwal, Option.bind_some, hc c (by simp), if_true]
    have hu' : (A.setField w { b with val := some fun c' => if c' = c then some (F c vs) else wal c' }).fields u = A.fields u := by
      show (if u = w then _ else _) = _
      rw [if_neg huw]
    obtain ⟨A', hA', hm', hfu, b', val', hb', hbm', hv', hd'⟩ := loop_scheme huw reads F known todo (done ++ [c])
      (A.setField w { b with val := some fun c' => if c' = c then some (F c vs) else wal c' }) hM
      (fun x hx => hc x (by simp [hx])) (fun x hx => hs x (by simp [hx])) ⟨a, val, by rw [hu', ha], ham, hval, hle⟩
      ⟨_, _, fields_setField_self _ _ _, hbm, rfl, by
        intro x hx
        show (if x = c then some (F c vs) else wal x) = _
        split
        · rename_i e; subst e; rw [hvs]; rfl
        · rename_i e
          rcases List.mem_append.mp hx with hx | hx
          · exact hdone x hx
          · exact absurd (List.mem_singleton.mp hx) e⟩
    refine ⟨A', ?_, hm', by rw [hfu, hu'], b', val', hb', hbm', hv', by simpa using hd'⟩
    rw [List.map_cons, meaning_cons, hmean, Option.bind_some]
    exact hA'

theorem transferred_mono {new : MeshVal C} {transfer : C → List C × (List K → K)} {known val : C → Option K}
    (hle : ∀ c v, known c = some v → val c = some v) (hs : ∀ c ∈ new.leaves, ((transfer c).1.mapM known).isSome) (c : C) (v : K)
    (h : transferred new transfer known c = some v) : transferred new transfer val c = some v := by
  simp only [transferred] at h ⊢
  split at h
  · rename_i hc
    obtain ⟨vs, hvs⟩ := Option.isSome_iff_exists.mp (hs c hc)
    rw [hvs] at h
    rw [if_pos hc, mapM_some_of (fun x _ y hy => hle x y hy) hvs]
    exact h
  · rename_i hc
    rw [if_neg hc]; exact h

theorem loop_step {u w m : Nat} (huw : u ≠ w) (s : LoopStep C K) {A : Maps C K B} {p p' : MeshVal C × (C → Option K)} (h : LoopInv u w m A p)
    (hn : s.next p = some p') : ∃ A', meaning A (s.prog u w) = some A' ∧ LoopInv u w m A' p' := by
  obtain ⟨a, val, ha, ham, hval, hle⟩ := h.u
  obtain ⟨b, hb, hbm⟩ := h.w
  simp only [LoopStep.next] at hn
  split at hn
  · rename_i hc
    obtain ⟨hn1, hn2, hn3⟩ := hc
    have hadapt : ∃ A1, mean A (FieldOp.adapt u [] s.new s.transfer) = some A1 ∧
        LoopInv u w m A1 (if p.1.leaves = s.new.leaves then p else (s.new, transferred s.new s.transfer p.2)) := by
      simp only [mean, ha, ham, h.mesh, Option.bind_some]
      by_cases e : p.1.leaves = s.new.leaves
      · simp only [if_pos e]
        exact ⟨A, rfl, h⟩
      · simp only [if_neg e]
        have hs : ∀ c ∈ s.new.leaves, ((s.transfer c).1.mapM p.2).isSome := hn3.resolve_left e
        rw [if_pos]
        · refine ⟨_, rfl, ?_, ⟨hn1, hn2⟩, ?_, ?_⟩
          · show (if m = m then some s.new else _) = _
            rw [if_pos rfl]
          · refine ⟨{ a with val := some (transferred s.new s.transfer fun c => A.value u c) }, _, ?_, ham, rfl, ?_⟩
            · show (A.fields u).map _ = _
              rw [ha, Option.map_some, if_pos ham]
              simp
            · intro c v hv
              have e : (fun c => A.value u c) = val := by funext c; exact value_of ha hval c
              rw [e]
              exact transferred_mono hle hs c v hv
          · refine ⟨{ b with val := none }, ?_, hbm⟩
            show (A.fields w).map _ = _
            rw [hb, Option.map_some, if_pos hbm]
            simp [Ne.symm huw]
        · refine ⟨⟨hn1, hn2⟩, by simp, ?_⟩
          intro g hg
          obtain rfl : g = u := by simpa using hg
          refine ready_iff.mpr ⟨a, val, ha, ham, hval, fun c hc => ?_⟩
          obtain ⟨vs, hvs⟩ := Option.isSome_iff_exists.mp (hs c hc)
          rw [mapM_some_of (fun x _ y hy => hle x y hy) hvs]
          rfl
    obtain ⟨A1, hA1, hI1⟩ := hadapt
    generalize hq : (if p.1.leaves = s.new.leaves then p else (s.new, transferred s.new s.transfer p.2)) = q at hn hI1
    have hql : q.1.leaves = s.new.leaves := by
      rw [← hq]
      split
      · assumption
      · rfl
    cases hgf : ghostFill q.1.cells q.2 s.ghosts with
    | none => rw [hgf] at hn; simp at hn
    | some v =>
      rw [hgf, Option.bind_some] at hn
      split at hn
      · rename_i hr
        cases hn
        obtain ⟨A2, hA2, hI2⟩ := loop_ghosts (Ne.symm huw) s.ghosts A1 q hI1 v hgf
        obtain ⟨a2, val2, ha2, ham2, hval2, hle2⟩ := hI2.u
        obtain ⟨b2, hb2, hbm2⟩ := hI2.w
        have hM2 : A2.meshes m = some q.1 := hI2.mesh
        have hmean : mean A2 (FieldOp.resize w) = some (A2.setField w { b2 with val := some (b2.val.getD fun _ => none) }) := by
          simp only [mean, hb2, hbm2, hM2, Option.bind_some]
        have hu3 : (A2.setField w { b2 with val := some (b2.val.getD fun _ => none) }).fields u = some a2 := by
          show (if u = w then _ else _) = _
          rw [if_neg huw]; exact ha2
        obtain ⟨A4, hA4, hm4, hfu4, b4, val4, hb4, hbm4, hv4, hd4⟩ := loop_scheme huw s.reads s.scheme v s.new.leaves []
          (A2.setField w { b2 with val := some (b2.val.getD fun _ => none) }) hM2
          (fun c hc => hI2.good.2 c (by show c ∈ q.1.leaves; rw [hql]; exact hc)) hr
          ⟨a2, val2, hu3, ham2, hval2, hle2⟩ ⟨_, _, fields_setField_self _ _ _, hbm2, rfl, by simp⟩
        have hswap : mean A4 (FieldOp.swapArrays u w) = some ((A4.setField u { a2 with val := b4.val }).setField w { b4 with val := a2.val }) := by
          simp only [mean, hfu4, hu3, hb4, Option.bind_some, ham2, hbm4, if_true, if_neg huw]
        refine ⟨(A4.setField u { a2 with val := b4.val }).setField w { b4 with val := a2.val }, ?_, ?_⟩
        · rw [LoopStep.prog, List.cons_append, List.cons_append, meaning_cons, hA1, Option.bind_some, List.append_assoc, meaning_append, hA2, Option.bind_some,
            List.cons_append, meaning_cons, hmean, Option.bind_some, meaning_append, hA4, Option.bind_some, meaning_cons, hswap, Option.bind_some]
          rfl
        · refine ⟨?_, hI2.good, ⟨{ a2 with val := b4.val }, val4, ?_, ham2, hv4, ?_⟩, ⟨_, fields_setField_self _ _ _, hbm4⟩⟩
          · show A4.meshes m = _
            rw [hm4]; exact hM2
          · show (if u = w then _ else if u = u then _ else _) = _
            rw [if_neg huw, if_pos rfl]
          · intro c x hx
            dsimp only at hx
            split at hx
            · rename_i hc
              rw [hd4 c (by simpa using hc)]; exact hx
            · cases hx
      · cases hn
  · cases hn

theorem loop_steps {u w m : Nat} (huw : u ≠ w) : ∀ (steps : List (LoopStep C K)) (A : Maps C K B) (p p' : MeshVal C × (C → Option K)), LoopInv u w m A p →
    steps.foldlM (fun q s => LoopStep.next s q) p = some p' →
    ∃ A', meaning A (steps.flatMap fun s => s.prog u w) = some A' ∧ LoopInv u w m A' p'
  | [], A, p, p', h, hn => by
    obtain rfl : p = p' := Option.some.inj hn
    exact ⟨A, rfl, h⟩
  | s :: steps, A, p, p', h, hn => by
    rw [List.foldlM_cons] at hn
    cases h1 : s.next p with
    | none => rw [h1] at hn; cases hn
    | some q =>
      rw [h1] at hn
      obtain ⟨A1, hA1, hI1⟩ := loop_step huw s h h1
      obtain ⟨A', hA', hI'⟩ := loop_steps huw steps A1 q p' hI1 hn
      refine ⟨A', ?_, hI'⟩
      rw [List.flatMap_cons, meaning_append, hA1, Option.bind_some]
      exact hA'

end Samurai.FieldLife

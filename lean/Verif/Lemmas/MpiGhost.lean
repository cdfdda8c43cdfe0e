import Verif.Spec.MpiGhost
import Verif.Spec.Mpi
import Verif.Lemmas.GhostOps
import Verif.Lemmas.AMRMesh
import Verif.Lemmas.AMRLoop
import Verif.Lemmas.InterfaceSets
import Verif.Props.Subset
import Verif.Props.Bc

namespace Samurai

section
variable {K : Type} {n : Nat} {ref : CA} {l : Nat}

/-! ### the rows of an interface -/

/-- The values of a row. -/
def rowVals (val : List Int → K) (c : Call) : List K :=
  (List.range (c.2.stop - c.2.start).toNat).map fun k : Nat => val (c.1 ++ [c.2.start + (k : Int)])

theorem sendRow_one (hw : ref.WF n) {c : Call} (hv : c.2.start < c.2.stop) (hs : c.2.step = 1) (hi : ∀ x ∈ c.2, ref.Mem n l (c.1 ++ [x]))
    (u : Int → Nat → K) (buf : List K) :
    sendRow n 1 ref l u buf c = some (buf ++ rowVals (fun p => u (numOf n ref l p) 0) c) := by
  obtain ⟨r, h2, h3⟩ := fieldInterval_ok (l := l) hw (yz := c.1) (I := c.2) (by omega) (fun y h1 h2 => hi y (Interval.mem_def.2 ⟨h1, by omega⟩))
  unfold sendRow
  rw [h2]
  simp only [Option.map_some, Nat.mul_one, Nat.div_one, Nat.mod_one]
  congr 2
  unfold rowVals
  refine List.map_congr_left fun k hk => ?_
  have := List.mem_range.1 hk
  show _ = u (numOf n ref l (c.1 ++ [c.2.start + (k : Int)])) 0
  rw [h3 _ (by omega) (by omega), Int.add_assoc]

theorem sendRows_one (hw : ref.WF n) (u : Int → Nat → K) : ∀ (calls : List Call), OkCalls n calls → (∀ p, Covers calls p → ref.Mem n l p) →
    ∀ buf, calls.foldlM (sendRow n 1 ref l u) buf = some (buf ++ calls.flatMap (rowVals fun p => u (numOf n ref l p) 0)) := by
  intro calls
  induction calls with
  | nil => intro _ _ buf; simp
  | cons c calls ih =>
    intro hok hmem buf
    obtain ⟨_, o2, o3, _⟩ := hok c List.mem_cons_self
    rw [List.foldlM_cons, sendRow_one hw o2 o3 (fun x hx => hmem _ ⟨c, List.mem_cons_self, x, hx, rfl⟩)]
    simp only [Option.bind_eq_bind, Option.bind_some]
    rw [ih (fun e he => hok e (List.mem_cons_of_mem _ he)) (fun p ⟨e, he, hp⟩ => hmem p ⟨e, List.mem_cons_of_mem _ he, hp⟩)]
    simp

theorem recvRow_one (hw : ref.WF n) (comb : K → K → K) {c : Call} (hv : c.2.start < c.2.stop) (hs : c.2.step = 1)
    (hi : ∀ x ∈ c.2, ref.Mem n l (c.1 ++ [x])) (val : List Int → K) (pre post : List K) (w : Int → Nat → K) :
    ∃ w', recvRow n 1 comb ref l (pre ++ (rowVals val c ++ post)) (pre.length, w) c = some ((pre ++ rowVals val c).length, w') ∧
      (∀ idx k, (k ≠ 0 ∨ ∀ x ∈ c.2, idx ≠ numOf n ref l (c.1 ++ [x])) → w' idx k = w idx k) ∧
      ∀ x ∈ c.2, w' (numOf n ref l (c.1 ++ [x])) 0 = comb (w (numOf n ref l (c.1 ++ [x])) 0) (val (c.1 ++ [x])) := by
  obtain ⟨r, h2, h3⟩ := fieldInterval_ok (l := l) hw (yz := c.1) (I := c.2) (by omega) (fun y h1 h2 => hi y (Interval.mem_def.2 ⟨h1, by omega⟩))
  have hlen : (rowVals val c).length = (c.2.stop - c.2.start).toNat := by simp [rowVals]
  unfold recvRow
  rw [h2]
  simp only []
  rw [if_pos (by simp only [List.length_append, hlen]; omega)]
  refine ⟨_, by rw [List.length_append, hlen], ?_, ?_⟩
  · intro idx k hk
    refine if_neg fun hc => ?_
    rcases hk with hk | hk
    · omega
    · refine hk (idx - r.index) (Interval.mem_def.2 ⟨by omega, by omega⟩) ?_
      rw [h3 _ (by omega) (by omega)]; omega
  · intro x hx
    have hx := Interval.mem_def.1 hx
    rw [h3 x (by omega) (by omega)]
    simp only [Nat.mul_one, Nat.add_zero]
    rw [if_pos ⟨by omega, by omega, by omega⟩]
    have he : (pre ++ (rowVals val c ++ post))[pre.length + (r.index + x - (r.index + c.2.start)).toNat]? = some (val (c.1 ++ [x])) := by
      rw [List.getElem?_append_right (by omega), List.getElem?_append_left (by rw [hlen]; omega)]
      unfold rowVals
      rw [List.getElem?_map, List.getElem?_range (by omega)]
      simp only [Option.map_some, Option.some.injEq]
      congr 2
      rw [List.cons.injEq]
      exact ⟨by omega, rfl⟩
    rw [he]

theorem recvRows_one (hw : ref.WF n) (hd : ref.NumbersDiffer n) (comb : K → K → K) (val : List Int → K) : ∀ (calls : List Call), OkCalls n calls →
    (∀ p, Covers calls p → ref.Mem n l p) → calls.Pairwise Call.Before → ∀ (pre : List K) (w : Int → Nat → K),
    ∃ k w', calls.foldlM (recvRow n 1 comb ref l (pre ++ calls.flatMap (rowVals val))) (pre.length, w) = some (k, w') ∧
      (∀ idx k, (k ≠ 0 ∨ ∀ p, Covers calls p → idx ≠ numOf n ref l p) → w' idx k = w idx k) ∧
      ∀ p, Covers calls p → w' (numOf n ref l p) 0 = comb (w (numOf n ref l p) 0) (val p) := by
  intro calls
  induction calls with
  | nil =>
    intro _ _ _ pre w
    refine ⟨_, _, rfl, fun _ _ _ => rfl, ?_⟩
    rintro p ⟨c, hc, _⟩
    simp at hc
  | cons c calls ih =>
    intro hok hmem hpw pre w
    obtain ⟨_, o2, o3, _⟩ := hok c List.mem_cons_self
    have tail : ∀ {p}, Covers calls p → Covers (c :: calls) p := fun ⟨e, he, r⟩ => ⟨e, List.mem_cons_of_mem _ he, r⟩
    have head : ∀ {x}, x ∈ c.2 → Covers (c :: calls) (c.1 ++ [x]) := fun {x} hx => ⟨c, List.mem_cons_self, x, hx, rfl⟩
    obtain ⟨w1, a1, a2, a3⟩ := recvRow_one hw comb o2 o3 (fun x hx => hmem _ (head hx)) val pre (calls.flatMap (rowVals val)) w
    obtain ⟨k, w2, b1, b2, b3⟩ := ih (fun e he => hok e (List.mem_cons_of_mem _ he)) (fun p hp => hmem p (tail hp)) (List.pairwise_cons.1 hpw).2
      (pre ++ rowVals val c) w1
    have hdis : ∀ x ∈ c.2, ¬ Covers calls (c.1 ++ [x]) := by
      rintro x hx ⟨e, he, y, hy, h⟩
      obtain ⟨h1, h2⟩ := List.append_inj' h rfl
      have h2 : x = y := by simpa using h2
      have hx := Interval.mem_def.1 hx
      have hy := Interval.mem_def.1 hy
      rcases (List.pairwise_cons.1 hpw).1 e he with hb | ⟨_, hb⟩
      · rw [h1] at hb
        exact lt_irrefl _ hb
      · omega
    refine ⟨k, w2, ?_, fun idx k hk => ?_, ?_⟩
    · rw [List.foldlM_cons, List.flatMap_cons, a1]
      simp only [Option.bind_eq_bind, Option.bind_some]
      rw [List.append_assoc] at b1
      exact b1
    · rw [b2 idx k (hk.imp id fun h p hp => h p (tail hp)), a2 idx k (hk.imp id fun h x hx => h _ (head hx))]
    · rintro p ⟨e, he, x, hx, rfl⟩
      rcases List.mem_cons.1 he with rfl | he'
      · rw [b2 _ _ (Or.inr fun p hp h => ?_), a3 x hx]
        rw [← numOf_inj hw hd (hmem _ (head hx)) (hmem _ (tail hp)) h] at hp
        exact hdis x hx hp
      · have hcov : Covers calls (e.1 ++ [x]) := ⟨e, he', x, hx, rfl⟩
        rw [b3 _ hcov, a2 _ _ (Or.inr fun y hy h => ?_)]
        rw [numOf_inj hw hd (hmem _ (tail hcov)) (hmem _ (head hy)) h] at hcov
        exact hdis y hy hcov

/-! ### an interface -/

variable {size : Nat} {M : Nat → MpiMesh}

/-- The interface of two meshes and a subdomain. -/
theorem interface_ok (h : MpiMeshes n size M) {p q s : Nat} (hp : p < size) (hq : q < size) (hs : s < size) (hlp : l ≤ (M p).ref.maxSize)
    (hlq : l ≤ (M q).ref.maxSize) :
    ∃ calls, mpiInterface n l (M p).ref (M q).ref (M s).sub = some calls ∧ mpiInterface n l (M q).ref (M p).ref (M s).sub = some calls ∧
      OkCalls n calls ∧ calls.Pairwise Call.Before ∧
      ∀ c, Covers calls c ↔ (M p).ref.Mem n l c ∧ (M q).ref.Mem n l c ∧ (M s).Owns n l c := by
  obtain ⟨T, D, d0, d1, d2, d3⟩ := h.range
  let e : Nat → Nat → Expr Node := fun p q =>
    .op .inter (.leaf (.mesh ((M p).ref.lca l))) (.op .inter (.leaf (.mesh ((M q).ref.lca l))) (.leaf (.mesh (M s).sub)))
  have adm : ∀ {p q : Nat}, p < size → q < size → l ≤ (M p).ref.maxSize → l ≤ (M q).ref.maxSize → (e p q).Admissible n ∧ l ≤ (e p q).finest ∧
      ∀ c, SetHolds n (e p q) l c ↔ (M p).ref.Mem n l c ∧ (M q).ref.Mem n l c ∧ (M s).Owns n l c := by
    intro p q hp hq hlp hlq
    have e1 : ((M p).ref.lca l).level = l := h.refLeveled p hp l hlp
    have e2 : ((M q).ref.lca l).level = l := h.refLeveled q hq l hlq
    have hfin : l ≤ (e p q).finest := by
      show l ≤ Nat.max ((M p).ref.lca l).level _
      rw [e1]; exact Nat.le_max_left _ _
    refine ⟨usable_admissible (M := T) d0 d1 ⟨⟨_, rfl, h.refWF p hp l hlp, by rw [e1]; exact (d3 p hp l hlp).1, (d3 p hp l hlp).2⟩,
      ⟨_, rfl, h.refWF q hq l hlq, by rw [e2]; exact (d3 q hq l hlq).1, (d3 q hq l hlq).2⟩, ⟨_, rfl, h.subWF s hs, (d2 s hs).1, (d2 s hs).2⟩⟩, hfin, fun c => ?_⟩
    unfold SetHolds
    rw [if_pos hfin]
    show AtLevel ((M p).ref.lca l).level l (fun x => ((M p).ref.lca l).Mem n x) c ∧ AtLevel ((M q).ref.lca l).level l (fun x => ((M q).ref.lca l).Mem n x) c ∧
      AtLevel (M s).sub.level l (fun x => (M s).sub.Mem n x) c ↔ _
    rw [e1, e2, atLevel_self, atLevel_self]
    exact ⟨fun ⟨a, b, c⟩ => ⟨⟨hlp, a⟩, ⟨hlq, b⟩, c⟩, fun ⟨a, b, c⟩ => ⟨a.2, b.2, c⟩⟩
  obtain ⟨a1, a2, a3⟩ := adm hp hq hlp hlq
  obtain ⟨b1, b2, b3⟩ := adm hq hp hlq hlp
  obtain ⟨calls, r1, r2, r3, _⟩ := runSet_canon a1 a2
  obtain ⟨calls', g1, g2⟩ := C15_on n _ a1 l
  obtain rfl : calls' = calls := by rw [r1] at g1; exact (Option.some.inj g1).symm
  refine ⟨calls', r1, ?_, fun c hc => ⟨r3 c hc, r2.2 c hc⟩, r2.1, fun c => (g2 c).trans (a3 c)⟩
  have := C16_same_sequence n (e p q) (e q p) a1 b1 l a2 b2 fun c => by rw [a3, b3]; tauto
  exact this.symm.trans r1

/-! ### a round -/

/-- All the processes have the meshes `M`, and the copies of the others are up to date. -/
def MpiReady (size : Nat) (M : Nat → MpiMesh) (s : Nat → MpiLocal K) : Prop :=
  ∀ p < size, (s p).mesh = M p ∧ ∀ q < size, q ≠ p → (s p).copy q = M q

/-- The round `R` sends the values of the level `l` on the interfaces, and combines them with `comb`. -/
structure Exchanges (n size : Nat) (M : Nat → MpiMesh) (out : Bool) (comb : K → K → K) (l : Nat) (R : MpiRound (MpiLocal K) (MpiMsg K)) : Prop where
  work : ∀ p s, R.work p s = some s
  peers : ∀ p s, R.peers p s = mpiPeers size l p s
  payload : ∀ p < size, ∀ q < size, ∀ s : MpiLocal K, s.mesh = M p → s.copy q = M q →
    R.payload p q s = sendRows n 1 (M p).ref l s.u (mpiInterface n l (M p).ref (M q).ref (M (if out then p else q)).sub)
  use : ∀ p < size, ∀ q < size, ∀ (s : MpiLocal K) msg, s.mesh = M p → s.copy q = M q →
    R.use p q msg s = recvRows n 1 comb l (mpiInterface n l (M q).ref (M p).ref (M (if out then q else p)).sub) msg s

/-- `q` sends to `p` the value of the cell `c`. -/
def Gives (n : Nat) (M : Nat → MpiMesh) (out : Bool) (l p q : Nat) (c : List Int) : Prop :=
  (M q).ref.Mem n l c ∧ (M (if out then q else p)).Owns n l c

theorem mem_others {size p q : Nat} : q ∈ mpiOthers size p ↔ q < size ∧ q ≠ p := by simp [mpiOthers]

theorem mem_mpiPeers {s : Nat → MpiLocal K} (hr : MpiReady size M s) {p q : Nat} (hp : p < size) : q ∈ mpiPeers size l p (s p) ↔
    (q < size ∧ q ≠ p) ∧ ((M p).ref.lca l).isEmpty = false ∧ ((M q).ref.lca l).isEmpty = false := by
  unfold mpiPeers
  rw [List.mem_filter, mem_others, (hr p hp).1]
  refine and_congr_right fun h => ?_
  rw [(hr p hp).2 q h.1 h.2]
  simp

theorem others_nodup (size p : Nat) : (mpiOthers size p).Nodup := List.nodup_range.filter _

open Classical in
/-- The messages of the neighbours `qs` are used. -/
theorem use_ok (h : MpiMeshes n size M) (hl : ∀ p < size, l ≤ (M p).ref.maxSize) {out : Bool} {comb : K → K → K} {R : MpiRound (MpiLocal K) (MpiMsg K)}
    (hx : Exchanges n size M out comb l R) {p : Nat} (hp : p < size) (msg : Nat → MpiMsg K) (val : Nat → List Int → K) :
    ∀ (qs : List Nat) (s : MpiLocal K), (∀ q ∈ qs, q < size ∧ q ≠ p) → s.mesh = M p → (∀ q < size, q ≠ p → s.copy q = M q) →
    (∀ q ∈ qs, ∃ calls, mpiInterface n l (M q).ref (M p).ref (M (if out then q else p)).sub = some calls ∧ msg q = .values (calls.flatMap (rowVals (val q)))) →
    ∃ s', qs.foldlM (fun a q => R.use p q (msg q) a) s = some s' ∧ s'.mesh = s.mesh ∧ s'.copy = s.copy ∧
      (∀ idx k, (k ≠ 0 ∨ ∀ c, (M p).ref.Mem n l c → idx ≠ numOf n (M p).ref l c) → s'.u idx k = s.u idx k) ∧
      ∀ c, (M p).ref.Mem n l c → s'.u (numOf n (M p).ref l c) 0 =
        (qs.filter fun q => decide (Gives n M out l p q c)).foldl (fun a q => comb a (val q c)) (s.u (numOf n (M p).ref l c) 0) := by
  intro qs
  induction qs with
  | nil => intro s _ _ _ _; exact ⟨s, rfl, rfl, rfl, fun _ _ _ => rfl, fun c hc => rfl⟩
  | cons q qs ih =>
    intro s hqs hm hcp hmsg
    obtain ⟨hq, hqp⟩ := hqs q List.mem_cons_self
    obtain ⟨calls, m1, m2⟩ := hmsg q List.mem_cons_self
    have hsub : (if out then q else p) < size := by cases out <;> simp [hp, hq]
    obtain ⟨calls', i1, _, i3, i4, i5⟩ := interface_ok (l := l) h hq hp hsub (hl q hq) (hl p hp)
    obtain rfl : calls' = calls := by rw [m1] at i1; exact (Option.some.inj i1).symm
    obtain ⟨k, w, r1, r2, r3⟩ := recvRows_one (h.refWF p hp) (h.numbers p hp) comb (val q) calls' i3 (fun c hc => ((i5 c).1 hc).2.1) i4 [] s.u
    have huse : R.use p q (msg q) s = some { s with u := w } := by
      rw [hx.use p hp q hq s (msg q) hm (hcp q hq hqp), m1, m2]
      unfold recvRows
      simp only [hm]
      simp only [List.nil_append, List.length_nil] at r1
      rw [r1]
      simp [hm]
    obtain ⟨s', a1, a2, a3, a4, a5⟩ := ih { s with u := w } (fun q' hq' => hqs q' (List.mem_cons_of_mem _ hq')) hm hcp
      (fun q' hq' => hmsg q' (List.mem_cons_of_mem _ hq'))
    refine ⟨s', by rw [List.foldlM_cons, huse]; exact a1, a2, a3, fun idx k hk => ?_, fun c hc => ?_⟩
    · rw [a4 idx k hk]
      exact r2 idx k (hk.imp id fun hk c hc => hk c ((i5 c).1 hc).2.1)
    · rw [a5 c hc]
      show List.foldl _ (w (numOf n (M p).ref l c) 0) _ = _
      by_cases hg : Gives n M out l p q c
      · rw [List.filter_cons_of_pos (by simpa using hg), List.foldl_cons, r3 c ((i5 c).2 ⟨hg.1, hc, hg.2⟩)]
      · rw [List.filter_cons_of_neg (by simpa using hg), r2 _ 0 (Or.inr fun c' hc' e => hg ?_)]
        obtain ⟨g1, g2, g3⟩ := (i5 c').1 hc'
        rw [numOf_inj (h.refWF p hp) (h.numbers p hp) hc g2 e]
        exact ⟨g1, g3⟩

open Classical in
/-- A round of exchanges. -/
theorem exchange_together (h : MpiMeshes n size M) (hl : ∀ p < size, l ≤ (M p).ref.maxSize) {out : Bool} {comb : K → K → K} {R : MpiRound (MpiLocal K) (MpiMsg K)}
    (hx : Exchanges n size M out comb l R) {s : Nat → MpiLocal K} (hr : MpiReady size M s) :
    ∃ msg s', TogetherRound size R s s msg s' ∧ MpiReady size M s' ∧ ∀ p < size,
      (∀ idx k, (k ≠ 0 ∨ ∀ c, (M p).ref.Mem n l c → idx ≠ numOf n (M p).ref l c) → (s' p).u idx k = (s p).u idx k) ∧
      ∀ c, (M p).ref.Mem n l c → (s' p).u (numOf n (M p).ref l c) 0 =
        ((mpiOthers size p).filter fun q => decide (Gives n M out l p q c)).foldl (fun a q => comb a ((s q).u (numOf n (M q).ref l c) 0))
          ((s p).u (numOf n (M p).ref l c) 0) := by
  have hpay : ∀ p < size, ∀ q < size, q ≠ p → ∃ calls, mpiInterface n l (M p).ref (M q).ref (M (if out then p else q)).sub = some calls ∧
      R.payload p q (s p) = some (.values (calls.flatMap (rowVals fun c => (s p).u (numOf n (M p).ref l c) 0))) := by
    intro p hp q hq hqp
    have hsub : (if out then p else q) < size := by cases out <;> simp [hp, hq]
    obtain ⟨calls, i1, _, i3, i4, i5⟩ := interface_ok (l := l) h hp hq hsub (hl p hp) (hl q hq)
    refine ⟨calls, i1, ?_⟩
    rw [hx.payload p hp q hq (s p) (hr p hp).1 ((hr p hp).2 q hq hqp), i1]
    unfold sendRows
    simp only []
    rw [sendRows_one (h.refWF p hp) (s p).u calls i3 (fun c hc => ((i5 c).1 hc).1)]
    rfl
  have huse : ∀ p, ∃ s', p < size → ((R.peers p (s p)).foldlM (fun a q => R.use p q ((R.payload q p (s q)).getD (.values [])) a) (s p) = some s' ∧ s'.mesh = (s p).mesh ∧
      s'.copy = (s p).copy ∧ (∀ idx k, (k ≠ 0 ∨ ∀ c, (M p).ref.Mem n l c → idx ≠ numOf n (M p).ref l c) → s'.u idx k = (s p).u idx k) ∧
      ∀ c, (M p).ref.Mem n l c → s'.u (numOf n (M p).ref l c) 0 =
        ((R.peers p (s p)).filter fun q => decide (Gives n M out l p q c)).foldl (fun a q => comb a ((s q).u (numOf n (M q).ref l c) 0))
          ((s p).u (numOf n (M p).ref l c) 0)) := by
    intro p
    by_cases hp : p < size
    · obtain ⟨s', e⟩ := use_ok h hl hx hp (fun q => (R.payload q p (s q)).getD (.values [])) (fun q c => (s q).u (numOf n (M q).ref l c) 0)
        (R.peers p (s p)) (s p) (fun q hq => by rw [hx.peers] at hq; exact ((mem_mpiPeers hr hp).1 hq).1) (hr p hp).1 (hr p hp).2 (by
          intro q hq
          rw [hx.peers] at hq
          obtain ⟨hqs, hqp⟩ := ((mem_mpiPeers hr hp).1 hq).1
          obtain ⟨calls, c1, c2⟩ := hpay q hqs p hp (Ne.symm hqp)
          exact ⟨calls, c1, by rw [c2]; rfl⟩)
      exact ⟨s', fun _ => e⟩
    · exact ⟨s p, fun hc => absurd hc hp⟩
  choose s' hs' using huse
  refine ⟨fun p q => (R.payload p q (s p)).getD (.values []), s', ⟨fun p _ => hx.work p (s p), ?_, ?_, ?_, ?_, fun p hp => (hs' p hp).1⟩, ?_, ?_⟩
  · intro p hp
    rw [hx.peers]
    exact (others_nodup size p).filter _
  · intro p hp q hq
    rw [hx.peers] at hq
    exact ((mem_mpiPeers hr hp).1 hq).1.1
  · intro p hp q hqs hq
    rw [hx.peers] at hq ⊢
    obtain ⟨⟨_, h2⟩, h3, h4⟩ := (mem_mpiPeers hr hp).1 hq
    exact (mem_mpiPeers hr hqs).2 ⟨⟨hp, Ne.symm h2⟩, h4, h3⟩
  · intro p hp q hq
    rw [hx.peers] at hq
    obtain ⟨hqs, hqp⟩ := ((mem_mpiPeers hr hp).1 hq).1
    obtain ⟨calls, _, c2⟩ := hpay p hp q hqs hqp
    rw [c2]
    rfl
  · intro p hp
    obtain ⟨_, e2, e3, _⟩ := hs' p hp
    rw [e2, e3]
    exact hr p hp
  · intro p hp
    obtain ⟨_, _, _, e4, e5⟩ := hs' p hp
    refine ⟨e4, fun c hc => ?_⟩
    rw [e5 c hc, hx.peers]
    congr 1
    unfold mpiPeers
    rw [List.filter_filter]
    refine List.filter_congr fun q hq => ?_
    obtain ⟨hqs, hqp⟩ := mem_others.1 hq
    by_cases hg : Gives n M out l p q c
    · have n1 : ((M p).ref.lca l).isEmpty = false := by
        by_contra hc'
        exact (empty_iff (h.refWF p hp) (hl p hp)).1 (by simpa using hc') c hc
      have n2 : ((M q).ref.lca l).isEmpty = false := by
        by_contra hc'
        exact (empty_iff (h.refWF q hqs) (hl q hqs)).1 (by simpa using hc') c hg.1
      simp [hg, (hr p hp).1, (hr p hp).2 q hqs hqp, n1, n2]
    · simp [hg]

/-- The exchange of the meshes. -/
theorem mesh_together (s : Nat → MpiLocal K) (hm : ∀ p < size, (s p).mesh = M p) :
    ∃ msg s', TogetherRound size (updateMeshNeighbour size) s s msg s' ∧ MpiReady size M s' ∧ ∀ p < size, (s' p).u = (s p).u := by
  have key : ∀ (qs : List Nat) (p : Nat) (a : MpiLocal K), qs.foldlM (fun a q => (updateMeshNeighbour size : MpiRound (MpiLocal K) (MpiMsg K)).use p q (.mesh (s q).mesh) a) a =
      some { a with copy := fun q => if q ∈ qs then (s q).mesh else a.copy q } := by
    intro qs
    induction qs with
    | nil => intro p a; simp
    | cons q qs ih =>
      intro p a
      rw [List.foldlM_cons]
      show List.foldlM _ ({ a with copy := fun q' => if q' = q then (s q).mesh else a.copy q' } : MpiLocal K) qs = _
      rw [ih]
      congr 2
      funext q'
      by_cases h1 : q' ∈ qs
      · simp [h1]
      · by_cases h2 : q' = q
        · subst h2; simp
        · simp [h1, h2]
  refine ⟨fun p _ => .mesh (s p).mesh, fun p => { s p with copy := fun q => if q ∈ mpiOthers size p then (s q).mesh else (s p).copy q },
    ⟨fun _ _ => rfl, fun p _ => others_nodup size p, fun p _ q hq => (mem_others.1 hq).1, fun p hp q hq h => mem_others.2 ⟨hp, Ne.symm (mem_others.1 h).2⟩,
      fun _ _ _ _ => rfl, fun p hp => key _ _ _⟩, fun p hp => ⟨hm p hp, fun q hq hqp => ?_⟩, fun _ _ => rfl⟩
  show (if q ∈ mpiOthers size p then (s q).mesh else (s p).copy q) = M q
  rw [if_pos (mem_others.2 ⟨hq, hqp⟩), hm q hq]

open Classical in
/-- The rounds of several levels. -/
theorem levels_together (h : MpiMeshes n size M) {out : Bool} {comb : K → K → K} {R : Nat → MpiRound (MpiLocal K) (MpiMsg K)} :
    ∀ (ls : List Nat), ls.Nodup → (∀ l ∈ ls, ∀ p < size, l ≤ (M p).ref.maxSize) → (∀ l ∈ ls, Exchanges n size M out comb l (R l)) →
    ∀ (s : Nat → MpiLocal K), MpiReady size M s → ∃ s', Together size (ls.map R) s s' ∧ MpiReady size M s' ∧ ∀ p < size,
      (∀ i, ∀ k ≠ 0, (s' p).u i k = (s p).u i k) ∧
      ∀ l c, (M p).ref.Mem n l c → (s' p).u (numOf n (M p).ref l c) 0 =
        if l ∈ ls then ((mpiOthers size p).filter fun q => decide (Gives n M out l p q c)).foldl (fun a q => comb a ((s q).u (numOf n (M q).ref l c) 0))
          ((s p).u (numOf n (M p).ref l c) 0) else (s p).u (numOf n (M p).ref l c) 0 := by
  intro ls
  induction ls with
  | nil => intro _ _ _ s hr; exact ⟨s, .nil s, hr, fun p hp => ⟨fun _ _ _ => rfl, fun l c _ => by simp⟩⟩
  | cons l0 ls ih =>
    intro hnd hl hx s hr
    obtain ⟨hl0, hnd'⟩ := List.nodup_cons.1 hnd
    obtain ⟨msg, s1, a1, a2, a3⟩ := exchange_together h (hl l0 List.mem_cons_self) (hx l0 List.mem_cons_self) hr
    obtain ⟨s2, b1, b2, b3⟩ := ih hnd' (fun l hl' => hl l (List.mem_cons_of_mem _ hl')) (fun l hl' => hx l (List.mem_cons_of_mem _ hl')) s1 a2
    have hsame : ∀ p < size, ∀ l c, (M p).ref.Mem n l c → l ≠ l0 → (s1 p).u (numOf n (M p).ref l c) 0 = (s p).u (numOf n (M p).ref l c) 0 := by
      intro p hp l c hc hne
      refine (a3 p hp).1 _ 0 (Or.inr fun c' hc' e => hne ?_)
      exact (numOf_level (h.refWF p hp) (h.numbers p hp) hc hc' e).1
    refine ⟨s2, .cons _ _ _ _ _ _ _ a1 b1, b2, fun p hp => ⟨fun i k hk => ?_, fun l c hc => ?_⟩⟩
    · rw [(b3 p hp).1 i k hk, (a3 p hp).1 i k (Or.inl hk)]
    · rw [(b3 p hp).2 l c hc]
      by_cases e : l = l0
      · subst e
        rw [if_neg hl0, if_pos List.mem_cons_self]
        exact (a3 p hp).2 c hc
      · by_cases hm : l ∈ ls
        · rw [if_pos hm, if_pos (List.mem_cons_of_mem _ hm), hsame p hp l c hc e]
          have key : ∀ (qs : List Nat), (∀ q ∈ qs, q < size ∧ (M q).ref.Mem n l c) → ∀ x,
              qs.foldl (fun a q => comb a ((s1 q).u (numOf n (M q).ref l c) 0)) x = qs.foldl (fun a q => comb a ((s q).u (numOf n (M q).ref l c) 0)) x := by
            intro qs
            induction qs with
            | nil => intro _ x; rfl
            | cons q qs ih' =>
              intro hq x
              obtain ⟨q1, q2⟩ := hq q List.mem_cons_self
              rw [List.foldl_cons, List.foldl_cons, hsame q q1 l c q2 e, ih' fun q' hq' => hq q' (List.mem_cons_of_mem _ hq')]
          refine key _ (fun q hq => ?_) _
          obtain ⟨h1, h2⟩ := List.mem_filter.1 hq
          exact ⟨(mem_others.1 h1).1, (of_decide_eq_true h2).1⟩
        · rw [if_neg hm, if_neg (by simp [e, hm]), hsame p hp l c hc e]

theorem ghost_exchanges (h : MpiMeshes n size M) (hl : ∀ p < size, l ≤ (M p).ref.maxSize) :
    Exchanges (K := K) n size M true (fun _ v => v) l (updateGhostSubdomains n 1 size l) where
  work _ _ := rfl
  peers _ _ := rfl
  payload p hp q hq s h1 h2 := by
    show sendRows n 1 s.mesh.ref l s.u (mpiInterface n l s.mesh.ref (s.copy q).ref s.mesh.sub) = _
    rw [h1, h2]; rfl
  use p hp q hq s msg h1 h2 := by
    show recvRows n 1 (fun _ v => v) l (mpiInterface n l (s.copy q).ref s.mesh.ref (s.copy q).sub) msg s = _
    rw [h1, h2]; rfl

theorem tag_exchanges (h : MpiMeshes n size M) (hl : ∀ p < size, l ≤ (M p).ref.maxSize) (or : K → K → K) (out erase : Bool) :
    Exchanges (K := K) n size M out (if erase then fun _ v => v else or) l (updateTagSubdomains n size or out erase l) where
  work _ _ := rfl
  peers _ _ := rfl
  payload p hp q hq s h1 h2 := by
    show sendRows n 1 s.mesh.ref l s.u (mpiInterface n l s.mesh.ref (s.copy q).ref (if out then s.mesh.sub else (s.copy q).sub)) = _
    rw [h1, h2]; cases out <;> rfl
  use p hp q hq s msg h1 h2 := by
    show recvRows n 1 (if erase then fun _ v => v else or) l (mpiInterface n l s.mesh.ref (s.copy q).ref (if out then (s.copy q).sub else s.mesh.sub)) msg s = _
    rw [h1, h2]
    have hsub : (if out then q else p) < size := by cases out <;> simp [hp, hq]
    obtain ⟨calls, i1, i2, _⟩ := interface_ok (l := l) h hp hq hsub (hl p hp) (hl q hq)
    have e : (if out = true then (M q).sub else (M p).sub) = (M (if out = true then q else p)).sub := by cases out <;> rfl
    rw [e, i1, i2]

end
end Samurai

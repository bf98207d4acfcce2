import Verif.Convert.NodeGradParts
import Verif.Convert.Props

/-!
# C44 and C79: the gradients of a converted model are derivatives

If the gradient of every node is right, then so is the gradient of the whole graph, as long as no name is used
twice. Nothing is assumed about the equations between gradients: `IsGradientOf` is about derivatives of the forward
pass of the model.
-/

namespace Verif.Convert

open Verif.Tensor Verif.Convert.Onnx

variable {ν : Type} [DecidableEq ν]

section Graphs

variable {V G : Type}

theorem ordered_split (const : ν → Bool) : ∀ (pre : List (Node ν V G)) (nd : Node ν V G) (sfx : List (Node ν V G)) (defd : List ν),
    Ordered const defd (pre ++ nd :: sfx) → (∀ i ∈ nd.ins, const i = true ∨ i ∈ defd ++ pre.flatMap (·.outs)) ∧
      (∀ o ∈ nd.outs, const o = false ∧ o ∉ defd ++ pre.flatMap (·.outs)) ∧ nd.outs.Nodup
  | [], nd, sfx, defd, h => by
      obtain ⟨h1, h2, h3, -⟩ := h
      simpa using ⟨h1, h2, h3⟩
  | nd' :: pre, nd, sfx, defd, h => by
      obtain ⟨-, -, -, h4⟩ := h
      simpa [List.append_assoc] using ordered_split const pre nd sfx (defd ++ nd'.outs) h4

theorem ordered_nodup (const : ν → Bool) : ∀ (nds : List (Node ν V G)) (defd : List ν), Ordered const defd nds → defd.Nodup →
    (defd ++ nds.flatMap (·.outs)).Nodup
  | [], defd, _, hd => by simpa using hd
  | nd :: nds, defd, ⟨_, h2, h3, h4⟩, hd => by
      have := ordered_nodup const nds (defd ++ nd.outs) h4 (List.nodup_append'.2 ⟨hd, h3, fun n h1 h => (h2 n h).2 h1⟩)
      simpa [List.append_assoc] using this

theorem ordered_const (const : ν → Bool) : ∀ (nds : List (Node ν V G)) (defd : List ν), Ordered const defd nds →
    ∀ nd ∈ nds, ∀ o ∈ nd.outs, const o = false
  | [], _, _, _, h, _, _ => by simp at h
  | nd :: nds, defd, ⟨_, h2, _, h4⟩, nd', h, o, ho => by
      rcases List.mem_cons.1 h with rfl | h
      · exact (h2 o ho).1
      · exact ordered_const const nds _ h4 nd' h o ho

theorem known_const (g : Graph ν V G) (const : ν → Bool) (hw : WellFormed g const) {n : ν} (h : n ∈ g.known) : const n = false := by
  unfold Graph.known at h
  rcases List.mem_append.1 h with h | h
  · exact hw.inputs n h
  · obtain ⟨nd, hm, ho⟩ := List.mem_flatMap.1 h
    exact ordered_const const _ _ hw.ordered nd hm n ho

theorem known_nodup (g : Graph ν V G) (const : ν → Bool) (hw : WellFormed g const) : g.known.Nodup :=
  ordered_nodup const _ _ hw.ordered hw.nodup

theorem dyn_eq (g : Graph ν V G) (const : ν → Bool) (hw : WellFormed g const) (nd : Node ν V G) (hm : nd ∈ g.nodes) :
    g.dyn nd = nd.ins.filter fun i => !const i := by
  obtain ⟨pre, sfx, hp⟩ := List.append_of_mem hm
  have ho := hw.ordered
  rw [hp] at ho
  obtain ⟨h1, -⟩ := ordered_split const pre nd sfx g.inputs ho
  unfold Graph.dyn
  apply List.filter_congr
  intro i hi
  rcases h1 i hi with h | h
  · have : i ∉ g.known := fun hk => by rw [known_const g const hw hk] at h; simp at h
    simp [this, h]
  · have hk : i ∈ g.known := by
      unfold Graph.known
      rw [hp, List.flatMap_append]
      simp only [List.mem_append] at h ⊢
      tauto
    simp [hk, known_const g const hw hk]

theorem dyn_defd (g : Graph ν V G) (const : ν → Bool) (hw : WellFormed g const) (pre : List (Node ν V G)) (nd : Node ν V G)
    (sfx : List (Node ν V G)) (hp : g.nodes = pre ++ nd :: sfx) {i : ν} (hi : i ∈ g.dyn nd) :
    i ∈ g.inputs ++ pre.flatMap (·.outs) := by
  have ho := hw.ordered
  rw [hp] at ho
  obtain ⟨h1, -⟩ := ordered_split const pre nd sfx g.inputs ho
  unfold Graph.dyn at hi
  obtain ⟨h2, h3⟩ := List.mem_filter.1 hi
  rcases h1 i h2 with h | h
  · rw [known_const g const hw (by simpa using h3)] at h; simp at h
  · exact h

omit [DecidableEq ν] in
theorem outs_known (g : Graph ν V G) {nd : Node ν V G} (hm : nd ∈ g.nodes) {o : ν} (ho : o ∈ nd.outs) : o ∈ g.known := by
  unfold Graph.known
  rw [List.mem_append, List.mem_flatMap]
  exact .inr ⟨nd, hm, ho⟩

theorem dyn_known (g : Graph ν V G) (nd : Node ν V G) {i : ν} (h : i ∈ g.dyn nd) : i ∈ g.known := by
  unfold Graph.dyn at h
  simpa using (List.mem_filter.1 h).2

end Graphs

/-- The velocity of a tensor is determined by how it moves. -/
theorem inner_velocity {Y : ℝ → Ten ℝ} {u u' d : Ten ℝ} {t : ℝ} (h : TenMoves Y u t) (h' : TenMoves Y u' t)
    (hd : d.shape = (Y t).shape) : Onnx.inner d u = Onnx.inner d u' := by
  unfold Onnx.inner
  refine Finset.sum_congr rfl fun i hi => ?_
  rw [mem_indices, hd] at hi
  rw [(h.2 i (by rw [← h.1 t]; exact hi)).unique (h'.2 i (by rw [← h'.1 t]; exact hi))]

theorem inner_velocities {t : ℝ} : ∀ {Ys : List (ℝ → Ten ℝ)} {us us' ds : List (Ten ℝ)},
    List.Forall₂ (fun Y U => TenMoves Y U t) Ys us → List.Forall₂ (fun Y U => TenMoves Y U t) Ys us' →
    List.Forall₂ (fun D U => D.shape = U.shape) ds us →
    (List.zipWith Onnx.inner ds us).sum = (List.zipWith Onnx.inner ds us').sum
  | _, _, _, _, .nil, .nil, .nil => rfl
  | _, _, _, _, .cons h hs, .cons h' hs', .cons hd hds => by
      rw [List.zipWith_cons_cons, List.zipWith_cons_cons, List.sum_cons, List.sum_cons, inner_velocities hs hs' hds,
        inner_velocity h h' (hd.trans (h.1 t).symm)]

/-- Every node has the right gradient at the values of its inputs. -/
def NodesRight (g : Graph ν (Ten ℝ) (Ten ℝ)) (const : ν → Bool) (val : ν → Ten ℝ) : Prop :=
  ∀ nd ∈ g.nodes, ∀ dys, List.Forall₂ (fun (D Y : Ten ℝ) => D.shape = Y.shape) dys (nd.outs.map val) →
    ∃ dxs, nd.bwd dys = some dxs ∧
      IsGradientOf (fun xs => orShape (nd.fwd xs)) ((nd.ins.filter fun i => !const i).map val) dys dxs

/-- A movement of all tensors of the graph, through the values `val` at time `t`. -/
def Flows (g : Graph ν (Ten ℝ) (Ten ℝ)) (const : ν → Bool) (val : ν → Ten ℝ) (C : ν → ℝ → Ten ℝ) (vel : ν → Ten ℝ) (t : ℝ) : Prop :=
  (∀ n ∈ g.known, TenMoves (C n) (vel n) t ∧ C n t = val n) ∧ ∀ s, Solves g const fun n => C n s

theorem orShape_ok {β : Type} {o : Option β} {b : β} (h : orShape o = .ok b) : o = some b := by
  cases o with
  | none => simp [orShape] at h
  | some a => simp only [orShape, Except.ok.injEq] at h; rw [h]

/-- The movement of the inputs moves everything. -/
theorem exists_flow (const : ν → Bool) (val : ν → Ten ℝ) (t : ℝ) : ∀ (nds : List (Node ν (Ten ℝ) (Ten ℝ))) (defd : List ν)
    (C0 : ν → ℝ → Ten ℝ) (vel0 : ν → Ten ℝ), Ordered const defd nds → (∀ n ∈ defd, const n = false) →
    (∀ nd ∈ nds, nd.fwd ((nd.ins.filter fun i => !const i).map val) = some (nd.outs.map val)) →
    (∀ nd ∈ nds, ∃ dys dxs, IsGradientOf (fun xs => orShape (nd.fwd xs)) ((nd.ins.filter fun i => !const i).map val) dys dxs) →
    (∀ n ∈ defd, TenMoves (C0 n) (vel0 n) t ∧ C0 n t = val n) →
    ∃ (C : ν → ℝ → Ten ℝ) (vel : ν → Ten ℝ), (∀ n ∈ defd, C n = C0 n ∧ vel n = vel0 n) ∧
      (∀ n ∈ defd ++ nds.flatMap (·.outs), TenMoves (C n) (vel n) t ∧ C n t = val n) ∧
      ∀ nd ∈ nds, ∀ s, nd.fwd ((nd.ins.filter fun i => !const i).map fun n => C n s) = some (nd.outs.map fun n => C n s)
  | [], defd, C0, vel0, _, _, _, _, h => ⟨C0, vel0, fun _ _ => ⟨rfl, rfl⟩, by simpa using h, by simp⟩
  | nd :: nds, defd, C0, vel0, ⟨o1, o2, o3, o4⟩, hc, hs, hg, hm => by
      obtain ⟨dys, dxs, -, hgr⟩ := hg nd (by simp)
      have hdyn : ∀ i ∈ nd.ins.filter fun i => !const i, i ∈ defd := by
        intro i hi
        obtain ⟨h1, h2⟩ := List.mem_filter.1 hi
        rcases o1 i h1 with h | h
        · rw [h] at h2; simp at h2
        · exact h
      obtain ⟨Ys, us, hY, hYm, -, -⟩ := hgr ((nd.ins.filter fun i => !const i).map C0)
        ((nd.ins.filter fun i => !const i).map vel0) t (by
          rw [List.map_map]
          exact List.map_congr_left fun i hi => (hm i (hdyn i hi)).2) (by
          rw [List.forall₂_map_left_iff, List.forall₂_map_right_iff]
          exact List.forall₂_same.2 fun i hi => (hm i (hdyn i hi)).1)
      have hY' : ∀ s, nd.fwd ((nd.ins.filter fun i => !const i).map fun n => C0 n s) = some (Ys.map fun Y => Y s) := fun s => by
        have := orShape_ok (hY s)
        rwa [List.map_map] at this
      have hYt : (Ys.map fun Y => Y t) = nd.outs.map val := by
        have h1 := hY' t
        have h2 := hs nd (by simp)
        have e : ((nd.ins.filter fun i => !const i).map fun n => C0 n t) = (nd.ins.filter fun i => !const i).map val :=
          List.map_congr_left fun i hi => (hm i (hdyn i hi)).2
        rw [e, h2] at h1
        exact (Option.some.inj h1).symm
      have hlen : Ys.length = nd.outs.length := by
        have := congrArg List.length hYt; simpa using this
      obtain ⟨C1, e1, hC1⟩ := setAll_length (C0 (nd.name)) nd.outs (fun n => some (C0 n)) Ys o3 hlen
      obtain ⟨vel1, e2, hv1⟩ := setAll_length (vel0 (nd.name)) nd.outs (fun n => some (vel0 n)) us o3
        (by rw [← hYm.length_eq, hlen])
      have hC1' : ∀ n ∈ defd, C1 n = C0 n ∧ vel1 n = vel0 n := fun n hn => by
        have h1 : n ∉ nd.outs := fun h => (o2 n h).2 hn
        exact ⟨hC1 n h1, hv1 n h1⟩
      have hm1 : ∀ n ∈ defd ++ nd.outs, TenMoves (C1 n) (vel1 n) t ∧ C1 n t = val n := by
        intro n hn
        rcases List.mem_append.1 hn with hn | hn
        · rw [(hC1' n hn).1, (hC1' n hn).2]; exact hm n hn
        · rw [e1, e2, List.forall₂_map_left_iff, List.forall₂_map_right_iff] at hYm
          refine ⟨List.forall₂_same.1 hYm n hn, ?_⟩
          rw [e1, List.map_map] at hYt
          exact List.map_inj_left.1 hYt n hn
      obtain ⟨C, vel, hC, hmv, hsol⟩ := exists_flow const val t nds (defd ++ nd.outs) C1 vel1 o4 (by
          intro n hn
          rcases List.mem_append.1 hn with hn | hn
          · exact hc n hn
          · exact (o2 n hn).1) (fun x hx => hs x (by simp [hx])) (fun x hx => hg x (by simp [hx])) hm1
      refine ⟨C, vel, fun n hn => ?_, by simpa [List.append_assoc] using hmv, fun x hx s => ?_⟩
      · rw [(hC n (by simp [hn])).1, (hC n (by simp [hn])).2]; exact hC1' n hn
      · rcases List.mem_cons.1 hx with rfl | hx
        · have e3 : ((x.ins.filter fun i => !const i).map fun n => C n s) =
              (x.ins.filter fun i => !const i).map fun n => C0 n s :=
            List.map_congr_left fun i hi => by
              rw [(hC i (by simp [hdyn i hi])).1, (hC1' i (hdyn i hi)).1]
          rw [e3, hY' s, e1, List.map_map]
          congr 1
          exact List.map_congr_left fun o ho => by
            rw [(hC o (by simp [ho])).1]; rfl
        · exact hsol x hx s

theorem sum_restrict (l m : List ν) (hl : l.Nodup) (hm : m.Nodup) (hs : ∀ n ∈ m, n ∈ l) (f : ν → ℝ) :
    (l.map fun n => if n ∈ m then f n else 0).sum = (m.map f).sum := by
  rw [← List.sum_toFinset _ hl, ← List.sum_toFinset _ hm, ← Finset.sum_filter]
  refine Finset.sum_congr ?_ fun _ _ => rfl
  ext n
  simp only [Finset.mem_filter, List.mem_toFinset]
  exact ⟨fun h => h.2, fun h => ⟨hs n h, h⟩⟩

omit [DecidableEq ν] in
theorem zip_inner (γ vel : ν → Ten ℝ) : ∀ l : List ν,
    (List.zipWith Onnx.inner (l.map γ) (l.map vel)).sum = (l.map fun n => Onnx.inner (γ n) (vel n)).sum
  | [] => rfl
  | n :: l => by simp only [List.map_cons, List.zipWith_cons_cons, List.sum_cons, zip_inner γ vel l]

/-- What is known after the gradients of the last nodes `sfx` have been computed. -/
theorem backward_flow (g : Graph ν (Ten ℝ) (Ten ℝ)) (const : ν → Bool) (hw : WellFormed g const) (val : ν → Ten ℝ)
    (hn : NodesRight g const val) (hu : ∀ n ∈ g.known, uses g g.nodes n = 1) (δ : ν → Ten ℝ)
    (hδ : ∀ o ∈ g.outputs, (δ o).shape = (val o).shape) (env0 : ν → Option (Ten ℝ))
    (h0 : env0 = fun n => if n ∈ g.outputs then some (δ n) else none) :
    ∀ (sfx pre : List (Node ν (Ten ℝ) (Ten ℝ))), g.nodes = pre ++ sfx →
      ∃ (env : ν → Option (Ten ℝ)) (γ : ν → Ten ℝ), backwardLoop g env0 sfx.reverse = some env ∧
        (∀ n ∈ g.known, uses g sfx n = 1 → env n = some (γ n) ∧ (γ n).shape = (val n).shape) ∧
        ∀ C vel t, Flows g const val C vel t →
          (g.outputs.map fun o => Onnx.inner (δ o) (vel o)).sum =
            ((g.inputs ++ pre.flatMap (·.outs)).map fun n => if uses g sfx n = 1 then Onnx.inner (γ n) (vel n) else 0).sum
  | [], pre, hp => by
      rw [List.append_nil] at hp
      have hcount : ∀ n, n ∈ g.outputs → g.outputs.count n = 1 := fun n h => by
        have h1 := hu n (hw.outputs n h)
        unfold uses at h1
        have := List.count_pos_iff.2 h
        omega
      refine ⟨env0, δ, rfl, ?_, ?_⟩
      · intro n _ h1
        have h2 : n ∈ g.outputs := by
          rw [← List.count_pos_iff]
          simp only [uses, List.map_nil, List.sum_nil, add_zero] at h1
          omega
        rw [h0]; exact ⟨if_pos h2, hδ n h2⟩
      · intro C vel t _
        rw [← hp]
        have e : (fun n => if uses g [] n = 1 then Onnx.inner (δ n) (vel n) else 0) =
            fun n => if n ∈ g.outputs then Onnx.inner (δ n) (vel n) else 0 := by
          funext n
          refine if_congr ?_ rfl rfl
          simp only [uses, List.map_nil, List.sum_nil, add_zero]
          exact ⟨fun h => List.count_pos_iff.1 (by omega), fun h => hcount n h⟩
        rw [e]
        exact (sum_restrict g.known g.outputs (known_nodup g const hw)
          (List.nodup_iff_count_le_one.2 fun n => by
            by_cases h : n ∈ g.outputs
            · rw [hcount n h]
            · rw [List.count_eq_zero_of_not_mem h]; omega) hw.outputs fun n => Onnx.inner (δ n) (vel n)).symm
  | nd :: sfx, pre, hp => by
      obtain ⟨env, γ, he, hγ, hsum⟩ := backward_flow g const hw val hn hu δ hδ env0 h0 sfx (pre ++ [nd]) (by simpa using hp)
      have hm : nd ∈ g.nodes := by rw [hp]; simp
      have ho := hw.ordered
      rw [hp] at ho
      obtain ⟨-, o2, o3⟩ := ordered_split const pre nd sfx g.inputs ho
      have hsplit : ∀ n, uses g g.nodes n = (pre.map fun x => (g.dyn x).count n).sum + (g.dyn nd).count n + uses g sfx n := by
        intro n
        unfold uses
        rw [hp, List.map_append, List.sum_append, List.map_cons, List.sum_cons]; omega
      have hstep : ∀ n, uses g (nd :: sfx) n = (g.dyn nd).count n + uses g sfx n := by
        intro n
        unfold uses
        rw [List.map_cons, List.sum_cons]; omega
      have houts : ∀ o ∈ nd.outs, uses g sfx o = 1 := by
        intro o h
        have h1 := hu o (outs_known g hm h)
        obtain ⟨_, _, h3⟩ := ordered_not_used const pre nd sfx g.inputs ho o h
        rw [hsplit, sum_zero_of_forall pre _ fun x hx => dyn_count_zero g x o (h3 x (by simp [hx])),
          dyn_count_zero g nd o (h3 nd (by simp))] at h1
        omega
      have hdyn1 : ∀ i ∈ g.dyn nd, (g.dyn nd).count i = 1 ∧ uses g sfx i = 0 := by
        intro i hi
        have h1 := hu i (dyn_known g nd hi)
        rw [hsplit] at h1
        have := List.count_pos_iff.2 hi
        omega
      have hdn : (g.dyn nd).Nodup := List.nodup_iff_count_le_one.2 fun n => by
        by_cases h : n ∈ g.dyn nd
        · rw [(hdyn1 n h).1]
        · rw [List.count_eq_zero_of_not_mem h]; omega
      obtain ⟨dxs, hb, hgr⟩ := hn nd hm (nd.outs.map γ) (by
        rw [List.forall₂_map_left_iff, List.forall₂_map_right_iff]
        exact List.forall₂_same.2 fun o h => (hγ o (outs_known g hm h) (houts o h)).2)
      rw [← dyn_eq g const hw nd hm] at hgr
      have hlen : dxs.length = (g.dyn nd).length := by
        have := hgr.1.length_eq; simpa using this.symm
      obtain ⟨γ', e1, hγ'⟩ := setAll_length (γ nd.name) (g.dyn nd) (fun n => some (γ n)) dxs hdn hlen
      refine ⟨fun n => if n ∈ g.dyn nd then some (γ' n) else env n, γ', ?_, ?_, ?_⟩
      · rw [List.reverse_cons, backwardLoop_append, he]
        simp only [Option.bind_some, backwardLoop, backwardStep]
        rw [layer_eq g hw.names nd hm]
        simp only [Option.bind_eq_bind, Option.bind_some]
        rw [mapM_env γ env nd.outs fun o h => (hγ o (outs_known g hm h) (houts o h)).1, Option.bind_some, hb, Option.bind_some, e1,
          setAll_val]
        rfl
      · intro n hk h1
        rw [hstep] at h1
        by_cases h : n ∈ g.dyn nd
        · refine ⟨if_pos h, ?_⟩
          have h2 := hgr.1
          rw [e1, List.forall₂_map_left_iff, List.forall₂_map_right_iff] at h2
          exact List.forall₂_same.1 h2 n h
        · rw [List.count_eq_zero_of_not_mem h] at h1
          obtain ⟨h2, h3⟩ := hγ n hk (by omega)
          rw [hγ' n h]
          exact ⟨(if_neg h).trans h2, h3⟩
      · intro C vel t hf
        rw [hsum C vel t hf]
        have hnode : (nd.outs.map fun o => Onnx.inner (γ o) (vel o)).sum =
            ((g.dyn nd).map fun i => Onnx.inner (γ' i) (vel i)).sum := by
          obtain ⟨Ys, us, hY, hYm, hsh, hin⟩ := hgr.2 ((g.dyn nd).map C) ((g.dyn nd).map vel) t (by
              rw [List.map_map]
              exact List.map_congr_left fun i hi => (hf.1 i (dyn_known g nd hi)).2) (by
              rw [List.forall₂_map_left_iff, List.forall₂_map_right_iff]
              exact List.forall₂_same.2 fun i hi => (hf.1 i (dyn_known g nd hi)).1)
          have hYs : ∀ s, (Ys.map fun Y => Y s) = nd.outs.map fun o => C o s := fun s => by
            have h1 := orShape_ok (hY s)
            have h2 := hf.2 s nd hm
            rw [← dyn_eq g const hw nd hm] at h2
            rw [List.map_map] at h1
            exact Option.some.inj (h1.symm.trans h2)
          have hYe : Ys = nd.outs.map C := by
            have hl : Ys.length = (nd.outs.map C).length := by
              have := congrArg List.length (hYs 0); simpa using this
            apply List.ext_getElem hl
            intro p h1 h2
            funext s
            have h3 := hYs s
            have h4 : (Ys.map fun Y => Y s)[p]'(by simpa using h1) = (nd.outs.map fun o => C o s)[p]'(by simpa using h2) := by
              simp only [h3]
            simpa using h4
          rw [hYe] at hYm
          have hYm' : List.Forall₂ (fun Y U => TenMoves Y U t) (nd.outs.map C) (nd.outs.map vel) := by
            rw [List.forall₂_map_left_iff, List.forall₂_map_right_iff]
            exact List.forall₂_same.2 fun o h => (hf.1 o (outs_known g hm h)).1
          rw [inner_velocities hYm hYm' hsh, e1, zip_inner, zip_inner] at hin
          exact hin
        rw [List.flatMap_append, ← List.append_assoc, List.map_append, List.sum_append]
        have eo : (([nd] : List (Node ν (Ten ℝ) (Ten ℝ))).flatMap (·.outs)) = nd.outs := by simp
        rw [eo]
        have e2 : (nd.outs.map fun n => if uses g sfx n = 1 then Onnx.inner (γ n) (vel n) else 0) =
            nd.outs.map fun o => Onnx.inner (γ o) (vel o) := List.map_congr_left fun o h => if_pos (houts o h)
        rw [e2, hnode]
        have hnd : (g.inputs ++ pre.flatMap (·.outs)).Nodup := by
          have := known_nodup g const hw
          unfold Graph.known at this
          rw [hp, List.flatMap_append, ← List.append_assoc] at this
          exact (List.nodup_append'.1 this).1
        have hsubk : ∀ n ∈ g.inputs ++ pre.flatMap (·.outs), n ∈ g.known := by
          intro n h
          unfold Graph.known
          rw [hp, List.flatMap_append, ← List.append_assoc]
          exact List.mem_append_left _ h
        rw [← sum_restrict (g.inputs ++ pre.flatMap (·.outs)) (g.dyn nd) hnd hdn
          (fun n h => dyn_defd g const hw pre nd sfx hp h), ← List.sum_map_add]
        congr 1
        apply List.map_congr_left
        intro n hnm
        have h1 := hu n (hsubk n hnm)
        rw [hsplit] at h1
        rw [hstep]
        by_cases h : n ∈ g.dyn nd
        · obtain ⟨h2, h3⟩ := hdyn1 n h
          rw [h2, h3, if_neg (by decide), if_pos h, if_pos (by decide), zero_add]
        · rw [List.count_eq_zero_of_not_mem h, if_neg h, add_zero, Nat.zero_add, hγ' n h]
          rfl

/-- **C44, C79 (the whole model, without fan-out).** If every node's gradient is right at the values of a graph,
and every input and every node output is used exactly once, then what `backward` returns are the gradients, with
respect to the inputs, of the function that `forward` computes. -/
theorem backward_gradient_partial (g : Graph ν (Ten ℝ) (Ten ℝ)) (const : ν → Bool) (hw : WellFormed g const) (val : ν → Ten ℝ)
    (hs : Solves g const val) (hn : NodesRight g const val) (hu : ∀ n ∈ g.known, uses g g.nodes n = 1) (dy : List (Ten ℝ))
    (hd : List.Forall₂ (fun (D Y : Ten ℝ) => D.shape = Y.shape) dy (g.outputs.map val)) :
    ∃ dx, backward g dy = some dx ∧ IsGradientOf (fun xs => orShape (forward g xs)) (g.inputs.map val) dy dx := by
  have hon : g.outputs.Nodup := List.nodup_iff_count_le_one.2 fun n => by
    by_cases h : n ∈ g.outputs
    · have h1 := hu n (hw.outputs n h)
      unfold uses at h1
      omega
    · rw [List.count_eq_zero_of_not_mem h]; omega
  obtain ⟨δ, e0, -⟩ := setAll_length (⟨[], fun _ => 0⟩ : Ten ℝ) g.outputs (fun _ => none) dy hon (by
    have := hd.length_eq; simpa using this)
  subst e0
  rw [List.forall₂_map_left_iff, List.forall₂_map_right_iff] at hd
  obtain ⟨env, γ, he, hγ, hsum⟩ := backward_flow g const hw val hn hu δ (List.forall₂_same.1 hd) _ rfl g.nodes [] rfl
  have hin : ∀ n ∈ g.inputs, n ∈ g.known := fun n h => by unfold Graph.known; simp [h]
  refine ⟨g.inputs.map γ, ?_, ?_, ?_⟩
  · unfold backward
    rw [setAll_val]
    simp only [Option.bind_eq_bind, Option.bind_some]
    rw [he, Option.bind_some]
    exact mapM_env γ env _ fun n h => (hγ n (hin n h) (hu n (hin n h))).1
  · rw [List.forall₂_map_left_iff, List.forall₂_map_right_iff]
    exact List.forall₂_same.2 fun n h => (hγ n (hin n h) (hu n (hin n h))).2
  · intro χs vs t hχ hm
    have hl : χs.length = g.inputs.length := by
      have := congrArg List.length hχ; simpa using this
    obtain ⟨C0, e1, -⟩ := setAll_length (fun _ => (⟨[], fun _ => 0⟩ : Ten ℝ)) g.inputs (fun _ => none) χs hw.nodup hl
    obtain ⟨vel0, e2, -⟩ := setAll_length (⟨[], fun _ => 0⟩ : Ten ℝ) g.inputs (fun _ => none) vs hw.nodup (by rw [← hm.length_eq, hl])
    subst e1 e2
    rw [List.map_map] at hχ
    rw [List.forall₂_map_left_iff, List.forall₂_map_right_iff] at hm
    obtain ⟨C, vel, hC, hmv, hsol⟩ := exists_flow const val t g.nodes g.inputs C0 vel0 hw.ordered hw.inputs hs (by
        intro nd hm
        obtain ⟨dxs, -, h⟩ := hn nd hm (nd.outs.map val) (by
          rw [List.forall₂_map_left_iff, List.forall₂_map_right_iff]; exact List.forall₂_same.2 fun _ _ => rfl)
        exact ⟨_, dxs, h⟩) fun n h => ⟨List.forall₂_same.1 hm n h, List.map_inj_left.1 hχ n h⟩
    have hf : Flows g const val C vel t := ⟨hmv, fun s nd h => hsol nd h s⟩
    refine ⟨g.outputs.map C, g.outputs.map vel, fun s => ?_, ?_, ?_, ?_⟩
    · have e : ((g.inputs.map C0).map fun χ => χ s) = g.inputs.map fun n => C n s := by
        rw [List.map_map]
        exact List.map_congr_left fun n h => by rw [(hC n h).1]; rfl
      rw [e, List.map_map]
      show orShape (forward g (g.inputs.map fun n => C n s)) = _
      rw [forward_correct g const hw (fun n => C n s) (hf.2 s)]; rfl
    · rw [List.forall₂_map_left_iff, List.forall₂_map_right_iff]
      exact List.forall₂_same.2 fun o h => (hf.1 o (hw.outputs o h)).1
    · rw [List.forall₂_map_left_iff, List.forall₂_map_right_iff]
      refine List.forall₂_same.2 fun o h => ?_
      obtain ⟨h1, h2⟩ := hf.1 o (hw.outputs o h)
      rw [List.forall₂_same.1 hd o h, ← h2, h1.1 t]
    · rw [zip_inner, hsum C vel t hf, zip_inner]
      simp only [List.flatMap_nil, List.append_nil]
      congr 1
      apply List.map_congr_left
      intro n h
      rw [if_pos (hu n (hin n h))]
      have := List.map_congr_left (f := vel0) (g := vel) (l := g.inputs) fun n h => ((hC n h).2).symm
      rw [(hC n h).2]

/-- A node built by the converter is a node of the graph: whatever it raises stops the evaluation. -/
theorem isGradientOf_node {f : List (Ten ℝ) → Except NErr (List (Ten ℝ))} {xs dys dxs : List (Ten ℝ)}
    (h : IsGradientOf f xs dys dxs) : IsGradientOf (fun xs => orShape (f xs).toOption) xs dys dxs := by
  refine ⟨h.1, fun χs vs t h1 h2 => ?_⟩
  obtain ⟨Ys, us, hY, h3⟩ := h.2 χs vs t h1 h2
  exact ⟨Ys, us, fun s => by beta_reduce; rw [hY s]; rfl, h3⟩

/-- A `Neg` node of a graph. -/
noncomputable def negGraphNode (name i o : ℕ) : Node ℕ (Ten ℝ) (Ten ℝ) where
  name := name
  ins := [i]
  outs := [o]
  fwd xs := ((argAt xs 0).map fun x => [(⟨x.shape, fun i => -x.get i⟩ : Ten ℝ)]).toOption
  bwd dys := (negBack dys).toOption

/-- The gradients of a model of two `Neg` nodes, at any input. -/
example (X D : Ten ℝ) (h : D.shape = X.shape) :
    ∃ dx, backward (⟨[0], [2], [negGraphNode 0 0 1, negGraphNode 1 1 2]⟩ : Graph ℕ (Ten ℝ) (Ten ℝ)) [D] = some dx ∧
      IsGradientOf (fun xs => orShape (forward (⟨[0], [2], [negGraphNode 0 0 1, negGraphNode 1 1 2]⟩ : Graph ℕ (Ten ℝ) (Ten ℝ)) xs))
        [X] [D] dx := by
  have hneg : ∀ X D : Ten ℝ, D.shape = X.shape →
      IsGradientOf (fun xs => orShape ((argAt xs 0).map fun x => [(⟨x.shape, fun i => -x.get i⟩ : Ten ℝ)]).toOption) [X] [D] [negT D] := by
    intro X D h
    obtain ⟨nd, dX, e1, e2, h⟩ := neg_gradient [] X D h
    obtain rfl := Except.ok.inj e1
    obtain rfl := (List.cons.inj (Except.ok.inj e2)).1
    exact isGradientOf_node h
  obtain ⟨dx, h1, h2⟩ := backward_gradient_partial (⟨[0], [2], [negGraphNode 0 0 1, negGraphNode 1 1 2]⟩ : Graph ℕ (Ten ℝ) (Ten ℝ))
    (fun _ => false) ⟨by decide, by simp, by simp, by simp [Ordered, negGraphNode], by simp [Graph.known, negGraphNode]⟩
    (fun n => if n = 1 then negT X else ⟨X.shape, fun i => if n = 2 then -(-X.get i) else X.get i⟩)
    (by
      intro nd hm
      simp only [List.mem_cons, List.not_mem_nil, or_false] at hm
      rcases hm with rfl | rfl <;> simp [negGraphNode, argAt, negT, Except.map, Except.toOption]) (by
      intro nd hm dys hd
      simp only [List.mem_cons, List.not_mem_nil, or_false] at hm
      rcases hm with rfl | rfl
      · cases hd with
        | @cons D' _ _ _ hd h2 =>
        cases h2
        exact ⟨[negT D'], rfl, by simpa [negGraphNode] using hneg X D' (by simpa [negT] using hd)⟩
      · cases hd with
        | @cons D' _ _ _ hd h2 =>
        cases h2
        exact ⟨[negT D'], rfl, by simpa [negGraphNode] using hneg (negT X) D' (by simpa [negT] using hd)⟩) (by
      intro n hn
      simp only [Graph.known, negGraphNode, List.flatMap_cons, List.flatMap_nil, List.cons_append, List.nil_append,
        List.mem_cons, List.not_mem_nil, or_false] at hn
      rcases hn with rfl | rfl | rfl <;> simp [uses, Graph.dyn, Graph.known, negGraphNode]) [D]
    (.cons (by simpa using h) .nil)
  exact ⟨dx, h1, by simpa using h2⟩

end Verif.Convert

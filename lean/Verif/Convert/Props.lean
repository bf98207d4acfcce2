import Verif.Convert.Model
import Mathlib.Algebra.Group.Basic
import Mathlib.Data.List.Nodup
import Mathlib.Algebra.Group.Int.Defs
import Mathlib.Algebra.Ring.Int.Defs
import Mathlib.Algebra.Order.Group.Nat

/-!
# C44: a converted model computes its graph, and (without fan-out) its gradients

`Solves` and `IsGradient` are the specification: the equations a valuation of the names, and the
gradients of the names, have to satisfy. They mention no execution order.
-/

namespace Verif.Convert

variable {ν : Type} [DecidableEq ν] {V G : Type}

/-- A valuation solves the graph: every node's outputs are its function applied to the values its
(non-constant) inputs name. -/
def Solves (g : Graph ν V G) (const : ν → Bool) (val : ν → V) : Prop :=
  ∀ nd ∈ g.nodes, nd.fwd ((nd.ins.filter fun i => !const i).map val) = some (nd.outs.map val)

/-- The nodes are listed so that every input is a constant or defined before its use, and no name
is defined twice (what ONNX demands of a graph). -/
def Ordered (const : ν → Bool) : List ν → List (Node ν V G) → Prop
  | _, [] => True
  | defd, nd :: nds =>
      (∀ i ∈ nd.ins, const i = true ∨ i ∈ defd) ∧
      (∀ o ∈ nd.outs, const o = false ∧ o ∉ defd) ∧ nd.outs.Nodup ∧
      Ordered const (defd ++ nd.outs) nds

/-- A well-formed graph; `const` marks the initializers. -/
structure WellFormed (g : Graph ν V G) (const : ν → Bool) : Prop where
  names : (g.nodes.map (·.name)).Nodup
  inputs : ∀ i ∈ g.inputs, const i = false
  nodup : g.inputs.Nodup
  ordered : Ordered const g.inputs g.nodes
  outputs : ∀ o ∈ g.outputs, o ∈ g.known

/-! ## Helpers -/

theorem layer_eq (g : Graph ν V G) (h : (g.nodes.map (·.name)).Nodup) (nd : Node ν V G)
    (hm : nd ∈ g.nodes) : g.layer nd.name = some nd := by
  unfold Graph.layer
  have hn : (g.nodes.reverse.map (·.name)).Nodup := by
    rw [List.map_reverse]; exact List.nodup_reverse.2 h
  have hm' : nd ∈ g.nodes.reverse := List.mem_reverse.2 hm
  generalize g.nodes.reverse = l at hn hm'
  induction l with
  | nil => cases hm'
  | cons a l ih =>
      simp only [List.map_cons, List.nodup_cons] at hn
      by_cases ha : a.name = nd.name
      · rcases List.mem_cons.1 hm' with rfl | hmem
        · simp
        · exact absurd (ha ▸ List.mem_map_of_mem hmem) hn.1
      · rcases List.mem_cons.1 hm' with rfl | hmem
        · exact absurd rfl ha
        · rw [List.find?_cons_of_neg (by simpa using ha)]
          exact ih hn.2 hmem

theorem setAll_val {W : Type} (val : ν → W) : ∀ (os : List ν) (env : ν → Option W),
    setAll env os (os.map val) = some fun n => if n ∈ os then some (val n) else env n
  | [], env => by simp [setAll]
  | o :: os, env => by
      simp only [List.map_cons, setAll]
      rw [setAll_val val os]
      congr 1
      funext n
      by_cases h1 : n ∈ os
      · simp [h1]
      · by_cases h2 : n = o
        · subst h2; simp [h1]
        · simp [h1, h2, Function.update_of_ne h2]

theorem mapM_env {W : Type} (val : ν → W) (env : ν → Option W) : ∀ (os : List ν),
    (∀ o ∈ os, env o = some (val o)) → os.mapM env = some (os.map val)
  | [], _ => rfl
  | o :: os, h => by
      rw [List.mapM_cons, h o (by simp), mapM_env val env os fun x hx => h x (by simp [hx])]
      rfl

theorem filterMap_env (val : ν → V) (const : ν → Bool) (defd : List ν)
    (hd : ∀ n ∈ defd, const n = false) : ∀ (ins : List ν),
    (∀ i ∈ ins, const i = true ∨ i ∈ defd) →
    ins.filterMap (fun n => if n ∈ defd then some (val n) else none) =
      (ins.filter fun i => !const i).map val
  | [], _ => rfl
  | i :: is, h => by
      have ih := filterMap_env val const defd hd is fun x hx => h x (by simp [hx])
      rw [List.filterMap_cons]
      rcases h i (by simp) with hc | hm
      · have : i ∉ defd := fun hm => by rw [hd i hm] at hc; exact Bool.noConfusion hc
        simp only [this, if_false]
        rw [ih, List.filter_cons_of_neg (by simp [hc])]
      · simp only [hm, if_true]
        rw [ih, List.filter_cons_of_pos (by simp [hd i hm]), List.map_cons]

theorem forwardLoop_val (g : Graph ν V G) (const : ν → Bool) (val : ν → V)
    (hn : (g.nodes.map (·.name)).Nodup) (hs : Solves g const val) :
    ∀ (nds : List (Node ν V G)) (defd : List ν), (∀ nd ∈ nds, nd ∈ g.nodes) →
      (∀ n ∈ defd, const n = false) → Ordered const defd nds →
      forwardLoop g (fun n => if n ∈ defd then some (val n) else none) nds =
        some fun n => if n ∈ defd ++ nds.flatMap (·.outs) then some (val n) else none
  | [], defd, _, _, _ => by simp [forwardLoop]
  | nd :: nds, defd, hsub, hd, ho => by
      obtain ⟨h1, h2, _, h4⟩ := ho
      have hm := hsub nd (by simp)
      have hd' : ∀ n ∈ defd ++ nd.outs, const n = false := by
        intro n hn'
        rcases List.mem_append.1 hn' with h | h
        · exact hd n h
        · exact (h2 n h).1
      have ih := forwardLoop_val g const val hn hs nds (defd ++ nd.outs)
        (fun x hx => hsub x (by simp [hx])) hd' h4
      simp only [forwardLoop, forwardStep]
      rw [layer_eq g hn nd hm, filterMap_env val const defd hd nd.ins h1]
      simp only [Option.bind_eq_bind, Option.bind_some]
      rw [hs nd hm, Option.bind_some, setAll_val, Option.bind_some]
      rw [show (fun n => if n ∈ nd.outs then some (val n) else
          if n ∈ defd then some (val n) else none) =
          fun n => if n ∈ defd ++ nd.outs then some (val n) else none by
        funext n
        by_cases a : n ∈ nd.outs <;> by_cases b : n ∈ defd <;> simp [a, b]]
      rw [ih]
      simp [List.flatMap_cons, List.append_assoc]

/-- **C44 (forward).** For every well-formed graph and every meaning of its nodes: if a valuation
solves the graph, the converted model run on the values of the inputs returns the values of the
outputs. (In particular there is at most one solution.) -/
theorem forward_correct (g : Graph ν V G) (const : ν → Bool) (hw : WellFormed g const)
    (val : ν → V) (hs : Solves g const val) :
    forward g (g.inputs.map val) = some (g.outputs.map val) := by
  unfold forward
  rw [setAll_val]
  simp only [Option.bind_eq_bind, Option.bind_some]
  rw [forwardLoop_val g const val hw.names hs g.nodes g.inputs (fun _ h => h) hw.inputs hw.ordered,
    Option.bind_some]
  exact mapM_env val _ _ fun o ho => if_pos (hw.outputs o ho)

theorem setAll_length {W : Type} (d : W) : ∀ (os : List ν) (env : ν → Option W) (rs : List W),
    os.Nodup → rs.length = os.length →
    ∃ val : ν → W, rs = os.map val ∧ ∀ n, n ∉ os → val n = (env n).getD d
  | [], env, [], _, _ => ⟨fun n => (env n).getD d, rfl, fun _ _ => rfl⟩
  | [], _, _ :: _, _, h => by simp at h
  | _ :: _, _, [], _, h => by simp at h
  | o :: os, env, r :: rs, hn, hl => by
      rw [List.nodup_cons] at hn
      obtain ⟨val, e, hv⟩ := setAll_length d os env rs hn.2 (by simpa using hl)
      refine ⟨Function.update val o r, ?_, ?_⟩
      · rw [List.map_cons, Function.update_self, e]
        congr 1
        apply List.map_congr_left
        intro a ha
        have hne : a ≠ o := fun h => hn.1 (h ▸ ha)
        rw [Function.update_of_ne hne]
      · intro n hne
        rw [List.mem_cons, not_or] at hne
        rw [Function.update_of_ne hne.1]
        exact hv n hne.2

theorem exists_val (const : ν → Bool) (d : V) : ∀ (nds : List (Node ν V G)) (defd : List ν)
    (val0 : ν → V), (∀ n ∈ defd, const n = false) → Ordered const defd nds →
    (∀ nd ∈ nds, ∀ l, ∃ r, nd.fwd l = some r ∧ r.length = nd.outs.length) →
    ∃ val : ν → V, (∀ n ∈ defd, val n = val0 n) ∧
      ∀ nd ∈ nds, nd.fwd ((nd.ins.filter fun i => !const i).map val) = some (nd.outs.map val)
  | [], _, val0, _, _, _ => ⟨val0, fun _ _ => rfl, by simp⟩
  | nd :: nds, defd, val0, hd, ho, ht => by
      obtain ⟨h1, h2, h3, h4⟩ := ho
      obtain ⟨r, hr, hl⟩ := ht nd (by simp) ((nd.ins.filter fun i => !const i).map val0)
      obtain ⟨val1, e1, hv1⟩ := setAll_length d nd.outs (fun n => some (val0 n)) r h3 hl
      have hd' : ∀ n ∈ defd ++ nd.outs, const n = false := by
        intro n hn'
        rcases List.mem_append.1 hn' with h | h
        · exact hd n h
        · exact (h2 n h).1
      obtain ⟨val, hv, hs⟩ := exists_val const d nds (defd ++ nd.outs) val1 hd' h4
        fun x hx => ht x (by simp [hx])
      have hdef : ∀ n ∈ defd, val n = val0 n := by
        intro n hn
        rw [hv n (by simp [hn]), hv1 n fun h => (h2 n h).2 hn]; rfl
      refine ⟨val, hdef, ?_⟩
      intro x hx
      rcases List.mem_cons.1 hx with rfl | hx
      · have e : (x.ins.filter fun i => !const i).map val =
            (x.ins.filter fun i => !const i).map val0 := by
          apply List.map_congr_left
          intro a ha
          rw [List.mem_filter] at ha
          rcases h1 a ha.1 with h | h
          · simp [h] at ha
          · exact hdef a h
        rw [e, hr, e1]
        congr 1
        apply List.map_congr_left
        intro a ha
        exact (hv a (by simp [ha])).symm
      · exact hs x hx

/-- **C44 (forward, existence).** If every node function succeeds and returns as many values as the
node has outputs, the forward pass succeeds on every input, and what it returns are the outputs of
the (unique) solution with these inputs. -/
theorem forward_total [Inhabited V] (g : Graph ν V G) (const : ν → Bool) (hw : WellFormed g const)
    (ht : ∀ nd ∈ g.nodes, ∀ l, ∃ r, nd.fwd l = some r ∧ r.length = nd.outs.length)
    (x : List V) (hx : x.length = g.inputs.length) :
    ∃ val : ν → V, g.inputs.map val = x ∧ Solves g const val ∧
      forward g x = some (g.outputs.map val) := by
  obtain ⟨val0, e0, _⟩ := setAll_length (default : V) g.inputs (fun _ => none) x hw.nodup hx
  obtain ⟨val, hv, hs⟩ := exists_val const default g.nodes g.inputs val0 hw.inputs hw.ordered ht
  have e : g.inputs.map val = x := by
    rw [e0]; exact List.map_congr_left fun a ha => hv a ha
  exact ⟨val, e, hs, by rw [← e]; exact forward_correct g const hw val hs⟩

/-! ## Gradients -/

/-- The entries of `rs` that belong to the name `n` in `ns`, added up. -/
def collect [AddCommMonoid G] (ns : List ν) (rs : List G) (n : ν) : G :=
  (((ns.zip rs).filter fun q => q.1 = n).map (·.2)).sum

/-- The contribution of one consumer to the gradient of `n`. -/
def contribution [AddCommMonoid G] (g : Graph ν V G) (grad : ν → G) (nd : Node ν V G) (n : ν) : G :=
  collect (g.dyn nd) ((nd.bwd (nd.outs.map grad)).getD []) n

/-- The gradients of the graph: the gradient of a name is what is given for it as an output plus
the contributions of all its consumers. -/
def IsGradient [AddCommMonoid G] (g : Graph ν V G) (dy : List G) (grad : ν → G) : Prop :=
  ∀ n ∈ g.known, grad n = collect g.outputs dy n + (g.nodes.map (contribution g grad · n)).sum

/-- How often a name is used: as an output, or as an input of a node. -/
def uses (g : Graph ν V G) (nds : List (Node ν V G)) (n : ν) : ℕ :=
  g.outputs.count n + (nds.map fun nd => (g.dyn nd).count n).sum

theorem collect_zero [AddCommMonoid G] : ∀ (ns : List ν) (rs : List G) (n : ν), ns.count n = 0 →
    collect ns rs n = 0
  | [], _, _, _ => by simp [collect]
  | _ :: _, [], _, _ => by simp [collect]
  | m :: ns, r :: rs, n, h => by
      have hne : m ≠ n := by
        intro e; subst e; simp at h
      have h' : ns.count n = 0 := by
        rw [List.count_cons_of_ne hne] at h; exact h
      have := collect_zero ns rs n h'
      unfold collect at *
      rw [List.zip_cons_cons, List.filter_cons_of_neg (by simpa using hne)]
      exact this

theorem setAll_collect [AddCommMonoid G] : ∀ (ns : List ν) (env : ν → Option G) (rs : List G),
    rs.length = ns.length → ∃ env', setAll env ns rs = some env' ∧
      (∀ n, ns.count n = 0 → env' n = env n) ∧
      ∀ n, ns.count n = 1 → env' n = some (collect ns rs n)
  | [], env, [], _ => ⟨env, rfl, fun _ _ => rfl, fun n h => by simp at h⟩
  | [], _, _ :: _, h => by simp at h
  | _ :: _, _, [], h => by simp at h
  | m :: ns, env, r :: rs, h => by
      obtain ⟨env', e, h0, h1⟩ := setAll_collect ns (Function.update env m (some r)) rs
        (by simpa using h)
      refine ⟨env', by simpa [setAll] using e, ?_, ?_⟩
      · intro n hn
        have hne : m ≠ n := by
          intro e; subst e; simp at hn
        rw [List.count_cons_of_ne hne] at hn
        rw [h0 n hn, Function.update_of_ne hne.symm]
      · intro n hn
        by_cases hne : m = n
        · subst hne
          rw [List.count_cons_self] at hn
          have hz : ns.count m = 0 := by omega
          rw [h0 m hz, Function.update_self]
          have := collect_zero ns rs m hz
          unfold collect at *
          rw [List.zip_cons_cons, List.filter_cons_of_pos (by simp), List.map_cons, List.sum_cons,
            this, add_zero]
        · rw [List.count_cons_of_ne hne] at hn
          rw [h1 n hn]
          unfold collect
          rw [List.zip_cons_cons, List.filter_cons_of_neg (by simpa using hne)]

theorem backwardLoop_append (g : Graph ν V G) : ∀ (a b : List (Node ν V G)) (env : ν → Option G),
    backwardLoop g env (a ++ b) = (backwardLoop g env a).bind fun e => backwardLoop g e b
  | [], _, _ => rfl
  | nd :: a, b, env => by
      simp only [List.cons_append, backwardLoop]
      cases backwardStep g env nd with
      | none => rfl
      | some e => simp only [Option.bind_some]; exact backwardLoop_append g a b e

/-- What a node defines is not used by it or by earlier nodes. -/
theorem ordered_not_used (const : ν → Bool) : ∀ (pre : List (Node ν V G)) (nd : Node ν V G)
    (sfx : List (Node ν V G)) (defd : List ν), Ordered const defd (pre ++ nd :: sfx) →
    ∀ o ∈ nd.outs, o ∉ defd ∧ const o = false ∧ ∀ nd' ∈ pre ++ [nd], o ∉ nd'.ins
  | [], nd, sfx, defd, h, o, ho => by
      obtain ⟨h1, h2, _, _⟩ := h
      refine ⟨(h2 o ho).2, (h2 o ho).1, ?_⟩
      intro nd' hm hi
      rw [List.nil_append, List.mem_singleton] at hm
      subst hm
      rcases h1 o hi with h | h
      · rw [(h2 o ho).1] at h; exact Bool.noConfusion h
      · exact (h2 o ho).2 h
  | p :: pre, nd, sfx, defd, h, o, ho => by
      obtain ⟨h1, h2, _, h4⟩ := h
      obtain ⟨i1, i2, i3⟩ := ordered_not_used const pre nd sfx (defd ++ p.outs) h4 o ho
      refine ⟨fun hm => i1 (by simp [hm]), i2, ?_⟩
      intro nd' hm hi
      rw [List.cons_append] at hm
      rcases List.mem_cons.1 hm with rfl | hm
      · rcases h1 o hi with h | h
        · rw [i2] at h; exact Bool.noConfusion h
        · exact i1 (by simp [h])
      · exact i3 nd' hm hi

theorem dyn_count_zero (g : Graph ν V G) (nd : Node ν V G) (n : ν) (h : n ∉ nd.ins) :
    (g.dyn nd).count n = 0 := by
  rw [List.count_eq_zero]
  intro hm
  exact h (List.mem_of_mem_filter hm)

theorem sum_zero_of_forall {β : Type} (l : List β) (f : β → ℕ) (h : ∀ b ∈ l, f b = 0) :
    (l.map f).sum = 0 := by
  induction l with
  | nil => rfl
  | cons a l ih =>
      rw [List.map_cons, List.sum_cons, h a (by simp), ih fun b hb => h b (by simp [hb])]

theorem sum_contrib_zero [AddCommMonoid G] (g : Graph ν V G) (grad : ν → G) (n : ν) :
    ∀ (l : List (Node ν V G)), (l.map fun nd => (g.dyn nd).count n).sum = 0 →
      (l.map (contribution g grad · n)).sum = 0
  | [], _ => rfl
  | nd :: l, h => by
      rw [List.map_cons, List.sum_cons] at h
      rw [List.map_cons, List.sum_cons, sum_contrib_zero g grad n l (by omega), add_zero]
      exact collect_zero _ _ _ (by omega)

theorem backwardLoop_inv [AddCommMonoid G] (g : Graph ν V G) (const : ν → Bool)
    (hw : WellFormed g const) (dy : List G) (hdy : dy.length = g.outputs.length) (grad : ν → G)
    (hg : IsGradient g dy grad) (hu : ∀ n ∈ g.known, uses g g.nodes n = 1)
    (hb : ∀ nd ∈ g.nodes, ∃ r, nd.bwd (nd.outs.map grad) = some r ∧ r.length = (g.dyn nd).length)
    (env0 : ν → Option G) (h0 : setAll (fun _ => none) g.outputs dy = some env0) :
    ∀ (sfx pre : List (Node ν V G)), g.nodes = pre ++ sfx →
      ∃ env, backwardLoop g env0 sfx.reverse = some env ∧
        ∀ n ∈ g.known, uses g sfx n = 1 → env n = some (grad n)
  | [], pre, hp => by
      refine ⟨env0, rfl, ?_⟩
      intro n hn hu1
      obtain ⟨env', e, _, hc⟩ := setAll_collect g.outputs (fun _ => none) dy hdy
      rw [h0] at e
      obtain rfl := Option.some.inj e
      have h1 : g.outputs.count n = 1 := by simpa [uses] using hu1
      rw [hc n h1, hg n hn]
      have := hu n hn
      unfold uses at this
      rw [sum_contrib_zero g grad n g.nodes (by omega), add_zero]
  | nd :: sfx, pre, hp => by
      obtain ⟨env, he, hinv⟩ := backwardLoop_inv g const hw dy hdy grad hg hu hb env0 h0 sfx
        (pre ++ [nd]) (by simpa using hp)
      have hm : nd ∈ g.nodes := by rw [hp]; simp
      obtain ⟨r, hr, hl⟩ := hb nd hm
      obtain ⟨env', e', hz, hc⟩ := setAll_collect (g.dyn nd) env r hl
      have houts : ∀ o ∈ nd.outs, env o = some (grad o) := by
        intro o ho
        have hk : o ∈ g.known := by
          unfold Graph.known
          rw [List.mem_append, List.mem_flatMap]
          exact Or.inr ⟨nd, hm, ho⟩
        apply hinv o hk
        have h1 := hu o hk
        have hord := hw.ordered
        rw [hp] at hord
        obtain ⟨_, _, h3⟩ := ordered_not_used const pre nd sfx g.inputs hord o ho
        unfold uses at *
        rw [hp, List.map_append, List.sum_append, List.map_cons, List.sum_cons,
          sum_zero_of_forall pre _ fun x hx => dyn_count_zero g x o (h3 x (by simp [hx])),
          dyn_count_zero g nd o (h3 nd (by simp))] at h1
        omega
      refine ⟨env', ?_, ?_⟩
      · rw [List.reverse_cons, backwardLoop_append, he]
        simp only [Option.bind_some, backwardLoop, backwardStep]
        rw [layer_eq g hw.names nd hm]
        simp only [Option.bind_eq_bind, Option.bind_some]
        rw [mapM_env grad env nd.outs houts, Option.bind_some, hr, Option.bind_some, e']
        rfl
      · intro n hn hu1
        have hu2 := hu n hn
        unfold uses at hu1 hu2
        rw [hp, List.map_append, List.sum_append] at hu2
        rw [List.map_cons, List.sum_cons] at hu1 hu2
        by_cases hcount : (g.dyn nd).count n = 0
        · rw [hz n hcount]
          apply hinv n hn
          unfold uses; omega
        · have h1 : (g.dyn nd).count n = 1 := by omega
          rw [hc n h1, hg n hn, hp, List.map_append, List.sum_append, List.map_cons, List.sum_cons,
            sum_contrib_zero g grad n pre (by omega), sum_contrib_zero g grad n sfx (by omega),
            collect_zero g.outputs dy n (by omega), zero_add, zero_add, add_zero]
          unfold contribution
          rw [hr]; rfl

/-- **C44 (backward, without fan-out).** For every well-formed graph in which every input and every
node output is used exactly once (by one node or as an output), and every meaning of the nodes:
backward returns, for each graph input, its gradient. -/
theorem backward_partial [AddCommMonoid G] (g : Graph ν V G) (const : ν → Bool)
    (hw : WellFormed g const) (dy : List G) (hdy : dy.length = g.outputs.length) (grad : ν → G)
    (hg : IsGradient g dy grad) (hu : ∀ n ∈ g.known, uses g g.nodes n = 1)
    (hb : ∀ nd ∈ g.nodes, ∃ r, nd.bwd (nd.outs.map grad) = some r ∧ r.length = (g.dyn nd).length) :
    backward g dy = some (g.inputs.map grad) := by
  obtain ⟨env0, h0, _, _⟩ := setAll_collect g.outputs (fun _ => none) dy hdy
  obtain ⟨env, he, hinv⟩ := backwardLoop_inv g const hw dy hdy grad hg hu hb env0 h0 g.nodes []
    rfl
  unfold backward
  rw [h0]
  simp only [Option.bind_eq_bind, Option.bind_some]
  rw [he, Option.bind_some]
  apply mapM_env
  intro n hn
  have hk : n ∈ g.known := by unfold Graph.known; simp [hn]
  exact hinv n hk (hu n hk)

/-! ## Where the property fails -/

/-- The graph `y = x + x`: names 0 (`x`) and 1 (`y`). -/
def double : Graph ℕ ℤ ℤ :=
  ⟨[0], [1], [⟨0, [0, 0], [1], fun l => match l with | [a, b] => some [a + b] | _ => none,
    fun d => match d with | [u] => some [u, u] | _ => none⟩]⟩

/-- The graph `y = 3 x + 5 x`, with two separate consumers of `x`. -/
def diamond : Graph ℕ ℤ ℤ :=
  ⟨[0], [3], [
    ⟨0, [0], [1], fun l => match l with | [a] => some [3 * a] | _ => none,
      fun d => match d with | [u] => some [3 * u] | _ => none⟩,
    ⟨1, [0], [2], fun l => match l with | [a] => some [5 * a] | _ => none,
      fun d => match d with | [u] => some [5 * u] | _ => none⟩,
    ⟨2, [1, 2], [3], fun l => match l with | [a, b] => some [a + b] | _ => none,
      fun d => match d with | [u] => some [u, u] | _ => none⟩]⟩

/-- The claim fails with fan-out: contributions overwrite each other instead of being added. For
`y = x + x` the gradient comes out as `d` and not `2 d`; for `y = 3 x + 5 x` as `3 d` and not
`8 d`, for every `d`. -/
theorem backward_fanout_false (d : ℤ) : backward double [d] = some [d] ∧
    backward diamond [d] = some [3 * d] ∧
    (∀ grad, IsGradient double [d] grad → grad 0 = 2 * d) ∧
    (∀ grad, IsGradient diamond [d] grad → grad 0 = 8 * d) := by
  refine ⟨rfl, rfl, ?_, ?_⟩
  · intro grad h
    have h0 := h 0 (by decide)
    have h1 := h 1 (by decide)
    simp [double, collect, contribution, Graph.dyn, Graph.known] at h0 h1
    rw [h0, h1]; omega
  · intro grad h
    have h0 := h 0 (by decide)
    have h1 := h 1 (by decide)
    have h2 := h 2 (by decide)
    have h3 := h 3 (by decide)
    simp [diamond, collect, contribution, Graph.dyn, Graph.known] at h0 h1 h2 h3
    rw [h0, h1, h2, h3]; omega

/-- A node output that nobody uses makes the backward pass raise (`KeyError`), even where the
gradient exists. -/
theorem backward_unused_false (d : ℤ) :
    backward (⟨[0], [1], [⟨0, [0], [1, 2], fun l => some (l ++ l),
      fun _ => some [d]⟩]⟩ : Graph ℕ ℤ ℤ) [d] = none := rfl

/-- Two nodes with the same name (ONNX permits it, and permits empty names) are both evaluated with
the layer of the later one: `y = 5 (3 x)` comes out as `25 x`. -/
theorem same_name_false (x : ℤ) :
    forward (⟨[0], [2], [
      ⟨7, [0], [1], fun l => match l with | [a] => some [3 * a] | _ => none, some⟩,
      ⟨7, [1], [2], fun l => match l with | [a] => some [5 * a] | _ => none, some⟩]⟩ :
        Graph ℕ ℤ ℤ) [x] = some [5 * (5 * x)] := rfl

/-- The diamond is well formed and solvable, and the forward pass is right on it. -/
example : WellFormed diamond (fun _ => false) ∧
    Solves diamond (fun _ => false) (fun n => if n = 0 then 2 else if n = 1 then 6 else
      if n = 2 then 10 else 16) ∧ forward diamond [2] = some [16] := by
  refine ⟨⟨by decide, by decide, by decide, ?_, by decide⟩, ?_, rfl⟩
  · simp [diamond, Ordered]
  · intro nd hnd
    simp only [diamond, List.mem_cons, List.not_mem_nil, or_false] at hnd
    rcases hnd with rfl | rfl | rfl <;> rfl

/-- A chain `y = 5 (3 x)` with a constant (name 9) among the inputs: every hypothesis of
`backward_partial` holds. -/
example (d : ℤ) : ∃ (g : Graph ℕ ℤ ℤ) (grad : ℕ → ℤ), WellFormed g (fun n => n = 9) ∧
    IsGradient g [d] grad ∧ (∀ n ∈ g.known, uses g g.nodes n = 1) ∧ grad 0 = 15 * d ∧
    backward g [d] = some [15 * d] := by
  refine ⟨⟨[0], [2], [
      ⟨7, [9, 0], [1], fun l => match l with | [a] => some [3 * a] | _ => none,
        fun u => match u with | [a] => some [3 * a] | _ => none⟩,
      ⟨8, [1], [2], fun l => match l with | [a] => some [5 * a] | _ => none,
        fun u => match u with | [a] => some [5 * a] | _ => none⟩]⟩,
    fun n => if n = 0 then 15 * d else if n = 1 then 5 * d else d, ?_, ?_, ?_, rfl, ?_⟩
  · refine ⟨by decide, by decide, by decide, ?_, by decide⟩
    simp [Ordered]
  · intro n hn
    simp [Graph.known] at hn
    rcases hn with rfl | rfl | rfl <;>
      simp [collect, contribution, Graph.dyn, Graph.known] <;> omega
  · decide
  · show some [3 * (5 * d)] = _
    congr 2; omega

end Verif.Convert

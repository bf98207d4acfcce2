import Verif.Aby3.Base
import Verif.Core.Support

/-!
# Distribution of results

The distribution of what a three-server computation returns, without the messages.
-/

namespace Verif

open RandM in
theorem RandM.dist_bind {S : Type} {T : S → Type} [∀ s, Fintype (T s)] [∀ s, Nonempty (T s)]
    {α β : Type} (m : RandM T α) (f : α → RandM T β) :
    (m.bind f).dist = m.dist.bind fun a => (f a).dist := by
  induction m with
  | pure a => simp [dist]
  | sample s k ih => simp only [bind_sample, dist, ih, PMF.bind_bind]
  | coin k ih => simp only [bind_coin, dist, ih, PMF.bind_bind]

namespace Aby3

variable {α β : Type}

/-- The distribution of the result of a three-server computation. -/
noncomputable def M.dist (m : M α) : PMF α := (RandM.dist (T := T) m).map Prod.fst

/-- What server `σ` is told, as a random variable. -/
noncomputable def M.view (σ : Fin 3) (m : M α) : PMF (List Msg) :=
  (RandM.dist (T := T) m).map fun r => seen σ r.2

theorem M.dist_pure (a : α) : M.dist (Pure.pure a) = PMF.pure a := by
  show (PMF.pure ((a, []) : α × List Msg)).map Prod.fst = _
  rw [PMF.pure_map]

theorem M.dist_draw (s : Srt) : M.dist (M.draw s) = PMF.uniformOfFintype (T s) := by
  show ((PMF.uniformOfFintype (T s)).bind fun t => PMF.pure ((t, []) : T s × List Msg)).map Prod.fst = _
  rw [PMF.map_bind]
  simp only [PMF.pure_map, PMF.bind_pure]

theorem M.dist_tell {s : Srt} (dst : Fin 3) (v : T s) : M.dist (M.tell dst v) = PMF.pure () := by
  show (PMF.pure (((), [⟨dst, s, v⟩]) : Unit × List Msg)).map Prod.fst = _
  rw [PMF.pure_map]

theorem dist_bind_aux (m : RandM T (α × List Msg)) (f : α → RandM T (β × List Msg)) :
    (RandM.dist (RandM.bind m fun r => RandM.bind (f r.1) fun q => .pure (q.1, r.2 ++ q.2))).map
      Prod.fst = ((RandM.dist m).map Prod.fst).bind fun a => (RandM.dist (f a)).map Prod.fst := by
  rw [RandM.dist_bind, PMF.map_bind, PMF.bind_map]
  congr 1
  funext r
  simp only [RandM.dist_bind, PMF.map_bind, RandM.dist, PMF.pure_map, Function.comp_apply]
  rfl

theorem M.dist_bind (m : M α) (f : α → M β) :
    M.dist (m >>= f) = (M.dist m).bind fun a => M.dist (f a) := dist_bind_aux m f

theorem M.All.dist_map {m : M α} {f : α → β} {c : β} (h : M.All (fun a => f a = c) m) :
    (M.dist m).map f = PMF.pure c := by
  unfold M.dist
  rw [PMF.map_comp]
  exact RandM.All.dist_map_eq_pure (f := f ∘ Prod.fst) h

end Aby3

end Verif

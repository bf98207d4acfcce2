import Verif.Core.Rand
import Mathlib.Probability.Distributions.Uniform

/-!
# Possible outcomes

"Whatever is drawn" is the same as "for every outcome of positive probability".
-/

namespace Verif.RandM

variable {S : Type} {T : S → Type} [∀ s, Fintype (T s)] [∀ s, Nonempty (T s)] {α β : Type}

theorem all_iff_support {P : α → Prop} (m : RandM T α) : All P m ↔ ∀ a ∈ m.dist.support, P a := by
  induction m with
  | pure a => simp [dist]
  | sample s k ih =>
    simp only [all_sample, dist, PMF.support_bind, ih]
    simp only [Set.mem_iUnion, PMF.support_uniformOfFintype, Set.top_eq_univ, Set.mem_univ]
    constructor
    · rintro h a ⟨t, _, ht⟩
      exact h t a ht
    · intro h t a ha
      exact h a ⟨t, trivial, ha⟩
  | coin k ih =>
    simp only [all_coin, dist, PMF.support_bind, ih]
    simp only [Set.mem_iUnion, PMF.support_uniformOfFintype, Set.top_eq_univ, Set.mem_univ]
    constructor
    · rintro h a ⟨t, _, ht⟩
      exact h t a ht
    · intro h t a ha
      exact h a ⟨t, trivial, ha⟩

/-- If an observation has the same distribution in two runs, then what always holds of it in one
always holds of it in the other. -/
theorem All.of_dist_eq {γ : Type} {f : α → γ} {g : β → γ} {m : RandM T α} {n : RandM T β}
    (h : m.dist.map f = n.dist.map g) {P : γ → Prop} (hm : All (fun a => P (f a)) m) :
    All (fun b => P (g b)) n := by
  rw [all_iff_support] at hm ⊢
  intro b hb
  have : g b ∈ (n.dist.map g).support := by
    rw [PMF.support_map]
    exact ⟨b, hb, rfl⟩
  rw [← h, PMF.support_map] at this
  obtain ⟨a, ha, e⟩ := this
  rw [← e]
  exact hm a ha

end Verif.RandM

import Verif.Triangle
import Mathlib.Data.List.Sort
import Mathlib.Data.List.Basic

/-! # Lemmas on sorted label lists and record lists -/

set_option linter.unusedSectionVars false

namespace Trikit

theorem mem_insLabel (x y : Int) (l : List Int) : y ∈ insLabel x l ↔ y = x ∨ y ∈ l := by
  induction l with
  | nil => simp [insLabel]
  | cons a l ih =>
    unfold insLabel
    split
    · simp
    · split
      · rename_i h1 h2; subst h2; simp
      · simp only [List.mem_cons, ih]; tauto

theorem insLabel_pairwise (x : Int) (l : List Int) (h : l.Pairwise (· < ·)) :
    (insLabel x l).Pairwise (· < ·) := by
  induction l with
  | nil => simp [insLabel]
  | cons a l ih =>
    rw [List.pairwise_cons] at h
    unfold insLabel
    split
    · rename_i h1
      rw [List.pairwise_cons]
      refine ⟨?_, List.pairwise_cons.2 h⟩
      intro b hb
      rcases List.mem_cons.1 hb with rfl | hb
      · exact h1
      · exact lt_trans h1 (h.1 b hb)
    · split
      · exact List.pairwise_cons.2 h
      · rename_i h1 h2
        rw [List.pairwise_cons]
        refine ⟨?_, ih h.2⟩
        intro b hb
        rcases (mem_insLabel x b l).1 hb with rfl | hb
        · omega
        · exact h.1 b hb

theorem mem_labels (y : Int) (l : List Int) : y ∈ labels l ↔ y ∈ l := by
  induction l with
  | nil => simp [labels]
  | cons a l ih =>
    have : labels (a :: l) = insLabel a (labels l) := rfl
    rw [this, mem_insLabel, ih]; simp

theorem labels_pairwise (l : List Int) : (labels l).Pairwise (· < ·) := by
  induction l with
  | nil => simp [labels]
  | cons a l ih => exact insLabel_pairwise a _ ih

theorem labels_nodup (l : List Int) : (labels l).Nodup :=
  (labels_pairwise l).imp (fun h => ne_of_lt h)

/-- A strictly increasing list is determined by its members. -/
theorem pairwise_lt_ext {l₁ l₂ : List Int} (h₁ : l₁.Pairwise (· < ·)) (h₂ : l₂.Pairwise (· < ·))
    (h : ∀ x, x ∈ l₁ ↔ x ∈ l₂) : l₁ = l₂ := by
  have hp : l₁.Perm l₂ :=
    (List.perm_ext_iff_of_nodup (h₁.imp (fun h => ne_of_lt h)) (h₂.imp (fun h => ne_of_lt h))).2 h
  exact hp.eq_of_pairwise (fun a b _ _ h1 h2 => absurd h1 (lt_asymm h2)) h₁ h₂

theorem labels_eq_of_mem {l : List Int} {s : List Int} (hs : s.Pairwise (· < ·))
    (h : ∀ x, x ∈ s ↔ x ∈ l) : labels l = s :=
  pairwise_lt_ext (labels_pairwise l) hs (fun x => by rw [mem_labels, h])

theorem labels_congr {l₁ l₂ : List Int} (h : ∀ x, x ∈ l₁ ↔ x ∈ l₂) : labels l₁ = labels l₂ :=
  labels_eq_of_mem (labels_pairwise _) (fun x => by rw [mem_labels, h])

theorem labels_ne_nil {l : List Int} (h : l ≠ []) : labels l ≠ [] := by
  obtain ⟨a, ha⟩ := List.exists_mem_of_ne_nil l h
  exact List.ne_nil_of_mem ((mem_labels a l).2 ha)

end Trikit

import Mathlib.Data.Finset.Card
import Mathlib.Data.List.Nodup
import Verif.Model.UCC
import Verif.Proofs.TransformExact
import Verif.Props.Transforms
import Verif.Props.Fermi
import Verif.Proofs.Adjoint

/-!
# Property theorems: unitary coupled-cluster excitations (C50)
-/

namespace HQCA.Props
open HQCA UCC

/-- A spin-conserving excitation of `O` to `V`: as many electrons as holes, from occupied to virtual orbitals, the
number of α electrons unchanged. -/
structure IsExc (alpha beta initial : List ℕ) (O V : Finset ℕ) : Prop where
  occ : ∀ x ∈ O, x ∈ alpha ++ beta ∧ x ∈ initial
  vir : ∀ x ∈ V, x ∈ alpha ++ beta ∧ x ∉ initial
  card : O.card = V.card
  spin : (O.filter (· ∈ alpha)).card = (V.filter (· ∈ alpha)).card

/-- The entry `e` stands for the excitation of its first half to its second half. -/
def Stands (e : List ℕ) (O V : Finset ℕ) : Prop :=
  (e.take (e.length / 2)).toFinset = O ∧ (e.drop (e.length / 2)).toFinset = V

theorem nodup_flatMap_key {α β : Type} (l : List α) (f : α → List β) (g : β → α) (hl : l.Nodup)
    (hf : ∀ x ∈ l, (f x).Nodup) (hg : ∀ x ∈ l, ∀ y ∈ f x, g y = x) : (l.flatMap f).Nodup := by
  rw [List.nodup_flatMap]
  refine ⟨hf, ?_⟩
  rw [List.pairwise_iff_getElem]
  intro i j hi hj hij
  simp only [Function.onFun]
  intro y hy1 hy2
  have := (hg _ (List.getElem_mem hi) y hy1).symm.trans (hg _ (List.getElem_mem hj) y hy2)
  have := (List.Nodup.getElem_inj_iff hl).mp this
  omega

theorem mem_singles (o v e : List ℕ) (h : e ∈ singles o v) : ∃ i j, i ∈ o ∧ j ∈ v ∧ e = [i, j] := by
  simp only [singles, List.mem_flatMap, List.mem_map] at h
  obtain ⟨i, hi, j, hj, rfl⟩ := h
  exact ⟨i, j, hi, hj, rfl⟩

theorem mem_same (o v e : List ℕ) (h : e ∈ doublesSame o v) :
    ∃ i k l j, i ∈ o ∧ k ∈ o ∧ l ∈ v ∧ j ∈ v ∧ i < k ∧ l < j ∧ e = [i, k, l, j] := by
  simp only [doublesSame, List.mem_flatMap] at h
  obtain ⟨i, hi, k, hk, h⟩ := h
  split_ifs at h with h1
  · simp at h
  · simp only [List.mem_flatMap] at h
    obtain ⟨l, hl, j, hj, h⟩ := h
    split_ifs at h with h2
    · simp at h
    · simp only [List.mem_singleton] at h
      exact ⟨i, k, l, j, hi, hk, hl, hj, by omega, by omega, h⟩

theorem mem_mixed (ao av bo bv e : List ℕ) (h : e ∈ doublesMixed ao av bo bv) :
    ∃ i k l j, i ∈ ao ∧ k ∈ bo ∧ l ∈ bv ∧ j ∈ av ∧ i < j ∧ e = [i, k, l, j] := by
  simp only [doublesMixed, List.mem_flatMap] at h
  obtain ⟨i, hi, k, hk, l, hl, j, hj, h⟩ := h
  split_ifs at h with h2
  · simp at h
  · simp only [List.mem_singleton] at h
    exact ⟨i, k, l, j, hi, hk, hl, hj, by omega, h⟩

theorem singles_mem {o v : List ℕ} {i j : ℕ} (hi : i ∈ o) (hj : j ∈ v) : [i, j] ∈ singles o v := by
  simp only [singles, List.mem_flatMap, List.mem_map]
  exact ⟨i, hi, j, hj, rfl⟩

theorem same_mem {o v : List ℕ} {i k l j : ℕ} (hi : i ∈ o) (hk : k ∈ o) (hl : l ∈ v) (hj : j ∈ v) (h1 : i < k)
    (h2 : l < j) : [i, k, l, j] ∈ doublesSame o v := by
  simp only [doublesSame, List.mem_flatMap]
  refine ⟨i, hi, k, hk, ?_⟩
  rw [if_neg (by omega)]
  simp only [List.mem_flatMap]
  refine ⟨l, hl, j, hj, ?_⟩
  rw [if_neg (by omega)]
  simp

theorem mixed_mem {ao av bo bv : List ℕ} {i k l j : ℕ} (hi : i ∈ ao) (hk : k ∈ bo) (hl : l ∈ bv) (hj : j ∈ av)
    (h : i < j) : [i, k, l, j] ∈ doublesMixed ao av bo bv := by
  simp only [doublesMixed, List.mem_flatMap]
  refine ⟨i, hi, k, hk, l, hl, j, hj, ?_⟩
  rw [if_neg (by omega)]
  simp

theorem nodup_singles (o v : List ℕ) (ho : o.Nodup) (hv : v.Nodup) : (singles o v).Nodup := by
  refine nodup_flatMap_key o _ (fun e => e.getD 0 0) ho (fun i _ => ?_) (fun i _ y hy => ?_)
  · exact hv.map (fun a b h => by simpa using h)
  · obtain ⟨j, _, rfl⟩ := List.mem_map.mp hy; rfl

theorem nodup_same (o v : List ℕ) (ho : o.Nodup) (hv : v.Nodup) : (doublesSame o v).Nodup := by
  refine nodup_flatMap_key o _ (fun e => e.getD 0 0) ho (fun i hi => ?_) (fun i hi y hy => ?_)
  · refine nodup_flatMap_key o _ (fun e => e.getD 1 0) ho (fun k hk => ?_) (fun k hk y hy => ?_)
    · split_ifs
      · exact List.nodup_nil
      · refine nodup_flatMap_key v _ (fun e => e.getD 2 0) hv (fun l hl => ?_) (fun l hl y hy => ?_)
        · refine nodup_flatMap_key v _ (fun e => e.getD 3 0) hv (fun j hj => ?_) (fun j hj y hy => ?_)
          · split_ifs <;> simp
          · split_ifs at hy
            · simp at hy
            · simp only [List.mem_singleton] at hy; subst hy; rfl
        · simp only [List.mem_flatMap] at hy
          obtain ⟨j, hj, hy⟩ := hy
          split_ifs at hy
          · simp at hy
          · simp only [List.mem_singleton] at hy; subst hy; rfl
    · split_ifs at hy
      · simp at hy
      · simp only [List.mem_flatMap] at hy
        obtain ⟨l, hl, j, hj, hy⟩ := hy
        split_ifs at hy
        · simp at hy
        · simp only [List.mem_singleton] at hy; subst hy; rfl
  · simp only [List.mem_flatMap] at hy
    obtain ⟨k, hk, hy⟩ := hy
    split_ifs at hy
    · simp at hy
    · simp only [List.mem_flatMap] at hy
      obtain ⟨l, hl, j, hj, hy⟩ := hy
      split_ifs at hy
      · simp at hy
      · simp only [List.mem_singleton] at hy; subst hy; rfl

theorem nodup_mixed (ao av bo bv : List ℕ) (h1 : ao.Nodup) (h2 : av.Nodup) (h3 : bo.Nodup) (h4 : bv.Nodup) :
    (doublesMixed ao av bo bv).Nodup := by
  have key : ∀ (i k l : ℕ) (e : List ℕ),
      e ∈ av.flatMap (fun j => if j ≤ i then [] else [[i, k, l, j]]) → ∃ j, e = [i, k, l, j] := by
    intro i k l e he
    simp only [List.mem_flatMap] at he
    obtain ⟨j, _, he⟩ := he
    split_ifs at he
    · simp at he
    · exact ⟨j, by simpa using he⟩
  refine nodup_flatMap_key ao _ (fun e => e.getD 0 0) h1 (fun i hi => ?_) (fun i hi y hy => ?_)
  · refine nodup_flatMap_key bo _ (fun e => e.getD 1 0) h3 (fun k hk => ?_) (fun k hk y hy => ?_)
    · refine nodup_flatMap_key bv _ (fun e => e.getD 2 0) h4 (fun l hl => ?_) (fun l hl y hy => ?_)
      · refine nodup_flatMap_key av _ (fun e => e.getD 3 0) h2 (fun j hj => ?_) (fun j hj y hy => ?_)
        · split_ifs <;> simp
        · split_ifs at hy
          · simp at hy
          · simp only [List.mem_singleton] at hy; subst hy; rfl
      · obtain ⟨j, rfl⟩ := key i k l y hy; rfl
    · obtain ⟨l, _, hy⟩ := List.mem_flatMap.mp hy
      obtain ⟨j, rfl⟩ := key i k l y hy; rfl
  · obtain ⟨k, _, hy⟩ := List.mem_flatMap.mp hy
    obtain ⟨l, _, hy⟩ := List.mem_flatMap.mp hy
    obtain ⟨j, rfl⟩ := key i k l y hy; rfl

section
variable (alpha beta initial : List ℕ)

theorem mem_occ {g : List ℕ} {x : ℕ} : x ∈ occ g initial ↔ x ∈ g ∧ x ∈ initial := by simp [occ]
theorem mem_vir {g : List ℕ} {x : ℕ} : x ∈ vir g initial ↔ x ∈ g ∧ x ∉ initial := by simp [vir]

/-- The list of the default call. -/
def full : List (List ℕ) :=
  (singles (occ alpha initial) (vir alpha initial) ++ singles (occ beta initial) (vir beta initial)) ++
    (doublesSame (occ alpha initial) (vir alpha initial) ++ doublesSame (occ beta initial) (vir beta initial) ++
      doublesMixed (occ alpha initial) (vir alpha initial) (occ beta initial) (vir beta initial))

/-- **C50.** Every listed entry is a spin-conserving single or double excitation. -/
theorem C50_sound (hd : ∀ x ∈ alpha, x ∉ beta) (L : List (List ℕ))
    (h : getUCC alpha beta initial true true false false = some L) :
    ∀ e ∈ L, ∃ O V, IsExc alpha beta initial O V ∧ (O.card = 1 ∨ O.card = 2) ∧ Stands e O V := by
  have hL : L = full alpha beta initial := by
    simpa [getUCC, full] using h.symm
  subst hL
  intro e he
  have hd' : ∀ x ∈ beta, x ∉ alpha := fun x h1 h2 => hd x h2 h1
  simp only [full, List.mem_append] at he
  rcases he with (he | he) | ((he | he) | he)
  · obtain ⟨i, j, hi, hj, rfl⟩ := mem_singles _ _ _ he
    rw [mem_occ] at hi; rw [mem_vir] at hj
    exact ⟨{i}, {j}, ⟨by simp [hi], by simp [hj], by simp, by simp [Finset.filter_singleton, hi, hj]⟩, by simp,
      by simp [Stands]⟩
  · obtain ⟨i, j, hi, hj, rfl⟩ := mem_singles _ _ _ he
    rw [mem_occ] at hi; rw [mem_vir] at hj
    have := hd' _ hi.1; have := hd' _ hj.1
    exact ⟨{i}, {j}, ⟨by simp [hi], by simp [hj], by simp, by simp [Finset.filter_singleton, *]⟩, by simp,
      by simp [Stands]⟩
  · obtain ⟨i, k, l, j, hi, hk, hl, hj, h1, h2, rfl⟩ := mem_same _ _ _ he
    rw [mem_occ] at hi hk; rw [mem_vir] at hj hl
    refine ⟨{i, k}, {l, j}, ⟨by simp [hi, hk], by simp [hj, hl], ?_, ?_⟩, ?_, by simp [Stands]⟩
    · rw [Finset.card_pair (by omega), Finset.card_pair (by omega)]
    · rw [Finset.filter_true_of_mem (by simp [hi, hk]), Finset.filter_true_of_mem (by simp [hj, hl]),
        Finset.card_pair (by omega), Finset.card_pair (by omega)]
    · right; rw [Finset.card_pair (by omega)]
  · obtain ⟨i, k, l, j, hi, hk, hl, hj, h1, h2, rfl⟩ := mem_same _ _ _ he
    rw [mem_occ] at hi hk; rw [mem_vir] at hj hl
    refine ⟨{i, k}, {l, j}, ⟨by simp [hi, hk], by simp [hj, hl], ?_, ?_⟩, ?_, by simp [Stands]⟩
    · rw [Finset.card_pair (by omega), Finset.card_pair (by omega)]
    · rw [Finset.filter_false_of_mem (by simp [hd' _ hi.1, hd' _ hk.1]),
        Finset.filter_false_of_mem (by simp [hd' _ hj.1, hd' _ hl.1])]
    · right; rw [Finset.card_pair (by omega)]
  · obtain ⟨i, k, l, j, hi, hk, hl, hj, h1, rfl⟩ := mem_mixed _ _ _ _ _ he
    rw [mem_occ] at hi hk; rw [mem_vir] at hj hl
    have n1 : i ≠ k := fun e => hd _ hi.1 (e ▸ hk.1)
    have n2 : l ≠ j := fun e => hd _ hj.1 (e ▸ hl.1)
    refine ⟨{i, k}, {l, j}, ⟨by simp [hi, hk], by simp [hj, hl], ?_, ?_⟩, ?_, by simp [Stands]⟩
    · rw [Finset.card_pair n1, Finset.card_pair n2]
    · simp [Finset.filter_insert, Finset.filter_singleton, hi.1, hd' _ hk.1, hj.1, hd' _ hl.1]
    · right; rw [Finset.card_pair n1]

theorem pair_lt (O : Finset ℕ) (h : O.card = 2) : ∃ x y, x < y ∧ O = {x, y} := by
  obtain ⟨x, y, hne, rfl⟩ := Finset.card_eq_two.mp h
  rcases Nat.lt_or_gt_of_ne hne with h | h
  · exact ⟨x, y, h, rfl⟩
  · exact ⟨y, x, h, Finset.pair_comm x y⟩

theorem pair_split (O : Finset ℕ) (P : ℕ → Prop) [DecidablePred P] (h : O.card = 2) (h1 : (O.filter P).card = 1) :
    ∃ x y, P x ∧ ¬ P y ∧ O = {x, y} := by
  obtain ⟨x, y, hne, rfl⟩ := Finset.card_eq_two.mp h
  by_cases hx : P x <;> by_cases hy : P y
  · exfalso
    rw [Finset.filter_true_of_mem (by simp [hx, hy]), Finset.card_pair hne] at h1
    omega
  · exact ⟨x, y, hx, hy, rfl⟩
  · exact ⟨y, x, hy, hx, Finset.pair_comm x y⟩
  · exfalso
    rw [Finset.filter_false_of_mem (by simp [hx, hy])] at h1
    simp at h1

theorem all_of_filter {O : Finset ℕ} {P : ℕ → Prop} [DecidablePred P] (h : (O.filter P).card = O.card) :
    ∀ x ∈ O, P x := by
  have : O.filter P = O := Finset.eq_of_subset_of_card_le (Finset.filter_subset _ _) (by omega)
  intro x hx
  rw [← this] at hx
  exact (Finset.mem_filter.mp hx).2

theorem none_of_filter {O : Finset ℕ} {P : ℕ → Prop} [DecidablePred P] (h : (O.filter P).card = 0) :
    ∀ x ∈ O, ¬ P x := by
  intro x hx hp
  rw [Finset.card_eq_zero] at h
  have : x ∈ O.filter P := Finset.mem_filter.mpr ⟨hx, hp⟩
  rw [h] at this
  simp at this

/-- Every spin-conserving single or double excitation has an entry, if occupied α orbitals come before the virtual
ones. -/
theorem complete (hlt : ∀ i ∈ alpha, i ∈ initial → ∀ j ∈ alpha, j ∉ initial → i < j)
    (O V : Finset ℕ) (hE : IsExc alpha beta initial O V) (hc : O.card = 1 ∨ O.card = 2) :
    ∃ e ∈ full alpha beta initial, Stands e O V := by
  have bo : ∀ x ∈ O, x ∉ alpha → x ∈ beta := fun x hx hn => by
    rcases List.mem_append.mp (hE.occ x hx).1 with h | h
    · exact absurd h hn
    · exact h
  have bv : ∀ x ∈ V, x ∉ alpha → x ∈ beta := fun x hx hn => by
    rcases List.mem_append.mp (hE.vir x hx).1 with h | h
    · exact absurd h hn
    · exact h
  have io := fun x hx => (hE.occ x hx).2
  have iv := fun x hx => (hE.vir x hx).2
  rcases hc with hc | hc
  · have hv := hE.card ▸ hc
    have hsp := hE.spin
    obtain ⟨i, rfl⟩ := Finset.card_eq_one.mp hc
    obtain ⟨j, rfl⟩ := Finset.card_eq_one.mp hv
    simp only [Finset.mem_singleton, forall_eq] at io iv bo bv
    refine ⟨[i, j], ?_, by simp [Stands]⟩
    simp only [full, List.mem_append]
    by_cases hi : i ∈ alpha <;> by_cases hj : j ∈ alpha
    · exact Or.inl (Or.inl (singles_mem ((mem_occ _).mpr ⟨hi, io⟩) ((mem_vir _).mpr ⟨hj, iv⟩)))
    · simp [Finset.filter_singleton, hi, hj] at hsp
    · simp [Finset.filter_singleton, hi, hj] at hsp
    · exact Or.inl (Or.inr (singles_mem ((mem_occ _).mpr ⟨bo hi, io⟩) ((mem_vir _).mpr ⟨bv hj, iv⟩)))
  · have hv : V.card = 2 := hE.card ▸ hc
    have hle : (O.filter (· ∈ alpha)).card ≤ 2 := hc ▸ Finset.card_filter_le _ _
    have hsp := hE.spin
    have h3 : (O.filter (· ∈ alpha)).card = 0 ∨ (O.filter (· ∈ alpha)).card = 1 ∨ (O.filter (· ∈ alpha)).card = 2 := by
      omega
    rcases h3 with h3 | h3 | h3
    · have n1 := none_of_filter h3
      have n2 := none_of_filter (hsp ▸ h3)
      obtain ⟨i, k, h1, rfl⟩ := pair_lt O hc
      obtain ⟨l, j, h2, rfl⟩ := pair_lt V hv
      refine ⟨[i, k, l, j], ?_, by simp [Stands]⟩
      simp only [full, List.mem_append]
      refine Or.inr (Or.inl (Or.inr (same_mem ?_ ?_ ?_ ?_ h1 h2)))
      · exact (mem_occ _).mpr ⟨bo i (by simp) (n1 i (by simp)), io i (by simp)⟩
      · exact (mem_occ _).mpr ⟨bo k (by simp) (n1 k (by simp)), io k (by simp)⟩
      · exact (mem_vir _).mpr ⟨bv l (by simp) (n2 l (by simp)), iv l (by simp)⟩
      · exact (mem_vir _).mpr ⟨bv j (by simp) (n2 j (by simp)), iv j (by simp)⟩
    · obtain ⟨i, k, hi, hk, rfl⟩ := pair_split O (· ∈ alpha) hc h3
      obtain ⟨j, l, hj, hl, rfl⟩ := pair_split V (· ∈ alpha) hv (hsp ▸ h3)
      refine ⟨[i, k, l, j], ?_, by simp [Stands, Finset.pair_comm]⟩
      simp only [full, List.mem_append]
      refine Or.inr (Or.inr (mixed_mem ?_ ?_ ?_ ?_ ?_))
      · exact (mem_occ _).mpr ⟨hi, io i (by simp)⟩
      · exact (mem_occ _).mpr ⟨bo k (by simp) hk, io k (by simp)⟩
      · exact (mem_vir _).mpr ⟨bv l (by simp) hl, iv l (by simp)⟩
      · exact (mem_vir _).mpr ⟨hj, iv j (by simp)⟩
      · exact hlt i hi (io i (by simp)) j hj (iv j (by simp))
    · have n1 := all_of_filter (h3.trans hc.symm)
      have n2 := all_of_filter ((hsp ▸ h3).trans hv.symm)
      obtain ⟨i, k, h1, rfl⟩ := pair_lt O hc
      obtain ⟨l, j, h2, rfl⟩ := pair_lt V hv
      refine ⟨[i, k, l, j], ?_, by simp [Stands]⟩
      simp only [full, List.mem_append]
      refine Or.inr (Or.inl (Or.inl (same_mem ?_ ?_ ?_ ?_ h1 h2)))
      · exact (mem_occ _).mpr ⟨n1 i (by simp), io i (by simp)⟩
      · exact (mem_occ _).mpr ⟨n1 k (by simp), io k (by simp)⟩
      · exact (mem_vir _).mpr ⟨n2 l (by simp), iv l (by simp)⟩
      · exact (mem_vir _).mpr ⟨n2 j (by simp), iv j (by simp)⟩

/-- The possible shapes of an entry. -/
theorem shape (hd : ∀ x ∈ alpha, x ∉ beta) (e : List ℕ) (he : e ∈ full alpha beta initial) :
    (∃ i j, e = [i, j]) ∨ ∃ i k l j, e = [i, k, l, j] ∧
      ((i < k ∧ l < j ∧ (i ∈ alpha ↔ k ∈ alpha) ∧ (l ∈ alpha ↔ j ∈ alpha) ∧ (i ∈ alpha ↔ l ∈ alpha)) ∨
       (i ∈ alpha ∧ k ∉ alpha ∧ l ∉ alpha ∧ j ∈ alpha)) := by
  have hd' : ∀ x ∈ beta, x ∉ alpha := fun x h1 h2 => hd x h2 h1
  simp only [full, List.mem_append] at he
  rcases he with (he | he) | ((he | he) | he)
  · obtain ⟨i, j, hi, hj, rfl⟩ := mem_singles _ _ _ he
    exact Or.inl ⟨i, j, rfl⟩
  · obtain ⟨i, j, hi, hj, rfl⟩ := mem_singles _ _ _ he
    exact Or.inl ⟨i, j, rfl⟩
  · obtain ⟨i, k, l, j, hi, hk, hl, hj, h1, h2, rfl⟩ := mem_same _ _ _ he
    rw [mem_occ] at hi hk; rw [mem_vir] at hj hl
    exact Or.inr ⟨i, k, l, j, rfl, Or.inl ⟨h1, h2, by simp [hi, hk], by simp [hj, hl], by simp [hi, hl]⟩⟩
  · obtain ⟨i, k, l, j, hi, hk, hl, hj, h1, h2, rfl⟩ := mem_same _ _ _ he
    rw [mem_occ] at hi hk; rw [mem_vir] at hj hl
    have a1 := hd' _ hi.1; have a2 := hd' _ hk.1; have a3 := hd' _ hl.1; have a4 := hd' _ hj.1
    exact Or.inr ⟨i, k, l, j, rfl, Or.inl ⟨h1, h2, by simp [a1, a2], by simp [a3, a4], by simp [a1, a3]⟩⟩
  · obtain ⟨i, k, l, j, hi, hk, hl, hj, h1, rfl⟩ := mem_mixed _ _ _ _ _ he
    rw [mem_occ] at hi hk; rw [mem_vir] at hj hl
    exact Or.inr ⟨i, k, l, j, rfl, Or.inr ⟨hi.1, hd' _ hk.1, hd' _ hl.1, hj.1⟩⟩

theorem pair_inj {x y z w : ℕ} (h : ({x, y} : Finset ℕ) = {z, w}) : (x = z ∧ y = w) ∨ (x = w ∧ y = z) := by
  have h1 : x ∈ ({z, w} : Finset ℕ) := h ▸ by simp
  have h2 : y ∈ ({z, w} : Finset ℕ) := h ▸ by simp
  have h3 : z ∈ ({x, y} : Finset ℕ) := h ▸ by simp
  have h4 : w ∈ ({x, y} : Finset ℕ) := h ▸ by simp
  simp only [Finset.mem_insert, Finset.mem_singleton] at h1 h2 h3 h4
  omega

theorem unique (hd : ∀ x ∈ alpha, x ∉ beta) (O V : Finset ℕ) (e e' : List ℕ) (he : e ∈ full alpha beta initial)
    (he' : e' ∈ full alpha beta initial) (h : Stands e O V) (h' : Stands e' O V)
    (hc : O.card = 1 ∧ e.length = 2 ∧ e'.length = 2 ∨ e.length = 4 ∧ e'.length = 4) : e = e' := by
  rcases shape alpha beta initial hd e he with ⟨i, j, rfl⟩ | ⟨i, k, l, j, rfl, hs⟩ <;>
    rcases shape alpha beta initial hd e' he' with ⟨i', j', rfl⟩ | ⟨i', k', l', j', rfl, hs'⟩
  · obtain ⟨h1, h2⟩ := h
    obtain ⟨h1', h2'⟩ := h'
    simp at h1 h2 h1' h2'
    rw [← h1] at h1'; rw [← h2] at h2'
    simp at h1' h2'
    rw [h1', h2']
  · simp at hc
  · simp at hc
  · obtain ⟨h1, h2⟩ := h
    obtain ⟨h1', h2'⟩ := h'
    simp at h1 h2 h1' h2'
    rcases pair_inj (h1.trans h1'.symm) with ⟨rfl, rfl⟩ | ⟨rfl, rfl⟩ <;>
      rcases pair_inj (h2.trans h2'.symm) with ⟨rfl, rfl⟩ | ⟨rfl, rfl⟩
    · rfl
    · exfalso
      rcases hs with hs | hs <;> rcases hs' with hs' | hs'
      · omega
      · tauto
      · tauto
      · tauto
    · exfalso
      rcases hs with hs | hs <;> rcases hs' with hs' | hs'
      · omega
      · tauto
      · tauto
      · tauto
    · exfalso
      rcases hs with hs | hs <;> rcases hs' with hs' | hs'
      · omega
      · tauto
      · tauto
      · tauto

theorem stands_length {e : List ℕ} {O V : Finset ℕ} (hd : ∀ x ∈ alpha, x ∉ beta) (he : e ∈ full alpha beta initial)
    (h : Stands e O V) : e.length = 2 * O.card := by
  rcases shape alpha beta initial hd e he with ⟨i, j, rfl⟩ | ⟨i, k, l, j, rfl, hs⟩
  · rw [← h.1]; simp
  · have : i ≠ k := by
      rintro rfl
      rcases hs with hs | hs
      · omega
      · tauto
    rw [← h.1]
    simp [Finset.card_pair this]

theorem nodup_full (ha : alpha.Nodup) (hb : beta.Nodup) (hd : ∀ x ∈ alpha, x ∉ beta) :
    (full alpha beta initial).Nodup := by
  have oa : (occ alpha initial).Nodup := ha.filter _
  have va : (vir alpha initial).Nodup := ha.filter _
  have ob : (occ beta initial).Nodup := hb.filter _
  have vb : (vir beta initial).Nodup := hb.filter _
  refine List.nodup_append.mpr ⟨List.nodup_append.mpr ⟨nodup_singles _ _ oa va, nodup_singles _ _ ob vb, ?_⟩,
    List.nodup_append.mpr ⟨List.nodup_append.mpr ⟨nodup_same _ _ oa va, nodup_same _ _ ob vb, ?_⟩,
      nodup_mixed _ _ _ _ oa va ob vb, ?_⟩, ?_⟩
  · intro e he e' he' heq
    obtain ⟨i, j, hi, hj, rfl⟩ := mem_singles _ _ _ he
    obtain ⟨i', j', hi', hj', rfl⟩ := mem_singles _ _ _ he'
    simp at heq
    rw [mem_occ] at hi hi'
    exact hd _ hi.1 (heq.1 ▸ hi'.1)
  · intro e he e' he' heq
    obtain ⟨i, k, l, j, hi, hk, hl, hj, h1, h2, rfl⟩ := mem_same _ _ _ he
    obtain ⟨i', k', l', j', hi', hk', hl', hj', h1', h2', rfl⟩ := mem_same _ _ _ he'
    simp at heq
    rw [mem_occ] at hi hi'
    exact hd _ hi.1 (heq.1 ▸ hi'.1)
  · intro e he e' he' heq
    obtain ⟨i', k', l', j', hi', hk', hl', hj', h1', rfl⟩ := mem_mixed _ _ _ _ _ he'
    rw [mem_occ] at hi' hk'
    rcases List.mem_append.mp he with he | he
    · obtain ⟨i, k, l, j, hi, hk, hl, hj, h1, h2, rfl⟩ := mem_same _ _ _ he
      simp at heq
      rw [mem_occ] at hk
      exact hd _ hk.1 (heq.2.1 ▸ hk'.1)
    · obtain ⟨i, k, l, j, hi, hk, hl, hj, h1, h2, rfl⟩ := mem_same _ _ _ he
      simp at heq
      rw [mem_occ] at hi
      exact hd _ hi'.1 (heq.1 ▸ hi.1)
  · intro e he e' he' heq
    have l1 : e.length = 2 := by
      rcases List.mem_append.mp he with he | he <;> obtain ⟨i, j, hi, hj, rfl⟩ := mem_singles _ _ _ he <;> rfl
    have l2 : e'.length = 4 := by
      rcases List.mem_append.mp he' with he | he
      · rcases List.mem_append.mp he with he | he <;>
          obtain ⟨i, k, l, j, hi, hk, hl, hj, h1, h2, rfl⟩ := mem_same _ _ _ he <;> rfl
      · obtain ⟨i', k', l', j', hi', hk', hl', hj', h1', rfl⟩ := mem_mixed _ _ _ _ _ he
        rfl
    rw [heq] at l1
    omega

/-- **C50 (partial).** With distinct orbitals, and every occupied α orbital numbered below every virtual α orbital,
`getUCCAnsatz` lists every spin-conserving single and double excitation exactly once: the list has no repeated
entry and exactly one entry stands for each excitation. -/
theorem C50_exactly_once_partial (ha : alpha.Nodup) (hb : beta.Nodup) (hd : ∀ x ∈ alpha, x ∉ beta)
    (hlt : ∀ i ∈ alpha, i ∈ initial → ∀ j ∈ alpha, j ∉ initial → i < j) :
    ∃ L, getUCC alpha beta initial true true false false = some L ∧ L.Nodup ∧
      ∀ O V, IsExc alpha beta initial O V → (O.card = 1 ∨ O.card = 2) → ∃! e, e ∈ L ∧ Stands e O V := by
  refine ⟨full alpha beta initial, by simp [getUCC, full], nodup_full alpha beta initial ha hb hd, ?_⟩
  intro O V hE hc
  obtain ⟨e, he, hs⟩ := complete alpha beta initial hlt O V hE hc
  refine ⟨e, ⟨he, hs⟩, ?_⟩
  rintro e' ⟨he', hs'⟩
  refine unique alpha beta initial hd O V e' e he' he hs' hs ?_
  have h1 := stands_length alpha beta initial hd he hs
  have h2 := stands_length alpha beta initial hd he' hs'
  rcases hc with hc | hc
  · left; omega
  · right; omega

/-- At most once holds for every numbering. -/
theorem C50_at_most_once (ha : alpha.Nodup) (hb : beta.Nodup) (hd : ∀ x ∈ alpha, x ∉ beta) (L : List (List ℕ))
    (h : getUCC alpha beta initial true true false false = some L) :
    L.Nodup ∧ ∀ O V, ∀ e ∈ L, ∀ e' ∈ L, Stands e O V → Stands e' O V → (O.card = 1 ∨ O.card = 2) → e = e' := by
  have hL : L = full alpha beta initial := by simpa [getUCC, full] using h.symm
  subst hL
  refine ⟨nodup_full alpha beta initial ha hb hd, fun O V e he e' he' hs hs' hc => ?_⟩
  refine unique alpha beta initial hd O V e e' he he' hs hs' ?_
  have h1 := stands_length alpha beta initial hd he hs
  have h2 := stands_length alpha beta initial hd he' hs'
  rcases hc with hc | hc
  · left; omega
  · right; omega

/-- **C50 violated.** With a user-supplied orbital order whose occupied α orbital is numbered above the virtual one
(`rdm_to_qubit=[[1,0],[3,2]]`, one electron of each spin), the only double excitation is missing. -/
theorem C50_missing :
    getUCC [1, 0] [3, 2] [1, 3] true true false false = some [[1, 0], [3, 2]] ∧
      IsExc [1, 0] [3, 2] [1, 3] {1, 3} {0, 2} ∧ ¬ ∃ e ∈ [[1, 0], [3, 2]], Stands e {1, 3} {0, 2} := by
  refine ⟨by decide, ⟨by decide, by decide, by decide, by decide⟩, ?_⟩
  unfold Stands
  decide

/-- The hypotheses hold for the default orbital order with two electrons in four orbitals. -/
example : (∀ i ∈ [0, 1], i ∈ [0, 2] → ∀ j ∈ [0, 1], j ∉ [0, 2] → i < j) ∧
    getUCC [0, 1] [2, 3] [0, 2] true true false false = some [[0, 1], [2, 3], [0, 2, 3, 1]] := by decide

end

/-! ### The generator -/

section
variable {K : Type} [Coef K]

/-- The excitation operator `a†_{x1} ⋯ a†_{xd} a_{y1} ⋯ a_{yd}` of an entry (its first half created, its second
half annihilated). -/
def excOp (t : List ℕ) : Oper K :=
  ((t.take (t.length / 2)).map (fun i => (cre i : Oper K))).prod * ((t.drop (t.length / 2)).map (fun i => ann i)).prod

theorem zip_replicate_eq {α : Type} (u : List ℕ) (x : α) : u.zip (List.replicate u.length x) = u.map (fun i => (i, x)) := by
  induction u with
  | nil => rfl
  | cons a u ih => simp [List.replicate_succ, ih]

theorem word_split (u v : List ℕ) (h : u.length = v.length) :
    word (u ++ v) = u.map (fun i => (i, FL.cr)) ++ v.map (fun i => (i, FL.an)) := by
  have hl : (u ++ v).length / 2 = u.length := by rw [List.length_append]; omega
  rw [word, hl, List.zip_append (by simp), zip_replicate_eq, h, zip_replicate_eq]

theorem even_split (t : List ℕ) (h : t.length % 2 = 0) : ∃ u v, t = u ++ v ∧ u.length = v.length := by
  refine ⟨t.take (t.length / 2), t.drop (t.length / 2), (List.take_append_drop _ _).symm, ?_⟩
  rw [List.length_take, List.length_drop]; omega

theorem word_reverse (t : List ℕ) (h : t.length % 2 = 0) :
    word t.reverse = (word t).reverse.map (fun x => (x.1, Fermi.conjLetter x.2)) := by
  obtain ⟨u, v, rfl, hl⟩ := even_split t h
  rw [List.reverse_append, word_split _ _ (by simp [hl]), word_split _ _ hl]
  simp [Fermi.conjLetter, Function.comp_def]

theorem word_ok (t : List ℕ) (h : t.length % 2 = 0) : ∀ a ∈ word t, a.2 ≠ .i := by
  obtain ⟨u, v, rfl, hl⟩ := even_split t h
  rw [word_split _ _ hl]
  intro a ha
  rcases List.mem_append.mp ha with ha | ha <;> obtain ⟨i, _, rfl⟩ := List.mem_map.mp ha <;> simp

theorem word_op (t : List ℕ) (h : t.length % 2 = 0) :
    ((word t).map (fun a => (fop a.1 a.2 : Oper K))).prod = excOp t := by
  obtain ⟨u, v, rfl, hl⟩ := even_split t h
  have h2 : (u ++ v).length / 2 = u.length := by rw [List.length_append]; omega
  rw [word_split _ _ hl, excOp, h2, List.take_left', List.drop_left', List.map_append, List.prod_append]
  · simp [Function.comp_def, fop]
  · rfl
  · rfl

theorem word_length (t : List ℕ) (h : t.length % 2 = 0) : (word t).length = t.length := by
  obtain ⟨u, v, rfl, hl⟩ := even_split t h
  rw [word_split _ _ hl]; simp

theorem word_lt (t : List ℕ) (h : t.length % 2 = 0) (N : ℕ) (hN : ∀ i ∈ t, i < N) : ∀ a ∈ word t, a.1 < N := by
  obtain ⟨u, v, rfl, hl⟩ := even_split t h
  rw [word_split _ _ hl]
  intro a ha
  rcases List.mem_append.mp ha with ha | ha <;> obtain ⟨i, hi, rfl⟩ := List.mem_map.mp ha <;>
    exact hN i (by simp [hi])

theorem isAdj_excOp (t : List ℕ) (h : t.length % 2 = 0) : IsAdj (excOp t : Oper K) (excOp t.reverse) := by
  have := isAdj_word (K := K) (word t)
  rw [← word_reverse t h] at this
  rw [← word_op t h, ← word_op t.reverse (by simpa using h)]
  exact this

theorem isAdj_anti {A B : Oper K} (hA : IsAdj A B) (hB : IsAdj B A) (p : K) (hp : conj p = p) :
    IsAdj (p • (A - B)) (-(p • (A - B))) := by
  have h := (hA.add (hB.smul (-1))).smul p
  rw [hp, conj_neg, conj_one] at h
  have e1 : p • (A - B) = p • (A + (-1 : K) • B) := by module
  have e2 : -(p • (A - B)) = p • (B + (-1 : K) • A) := by module
  rw [e1, ← e1, e2, e1]
  exact h

/-- **C50.** The fermionic generator assembled for one excitation and a real parameter `p` is
`p (X − X†)` with `X` the excitation operator, and it is anti-Hermitian. -/
theorem C50_generator (p : K) (hp : conj p = p) (t : List ℕ) (h : t.length % 2 = 0) (N : ℕ) :
    ∃ A, gen p t N = some A ∧ UniqueKeys A ∧ denD (denF 0) A = p • (excOp t - excOp t.reverse : Oper K) ∧
      IsAdj (excOp t : Oper K) (excOp t.reverse) ∧ IsAdj (denD (denF 0) A) (-denD (denF 0) A : Oper K) := by
  have hr : t.reverse.length % 2 = 0 := by simpa using h
  obtain ⟨a, a1, a2, _⟩ := C09_fermi_generate p (word t) N (word_ok t h)
  obtain ⟨b, b1, b2, _⟩ := C09_fermi_generate p (word t.reverse) N (word_ok _ hr)
  rw [word_op _ h] at a2
  rw [word_op _ hr] at b2
  have hd : denD (denF 0) (OpD.addStr (OpD.addStr [] a) (b.1, b.2 * (-1))) =
      p • (excOp t - excOp t.reverse : Oper K) := by
    have := OpD.denD_foldl_addStr (K := K) (denF 0) [a, (b.1, b.2 * (-1))] [] OpD.uniqueKeys_nil
    simp only [List.foldl_cons, List.foldl_nil] at this
    rw [this, OpD.denD_nil, zero_add]
    simp only [denD, List.map_cons, List.map_nil, List.sum_cons, List.sum_nil, add_zero]
    rw [a2, smul_sub, ← b2]
    module
  refine ⟨_, by simp only [gen, a1, b1, bind, Option.bind, pure], ?_, hd, isAdj_excOp t h, ?_⟩
  · exact OpD.addStr_unique _ _ (OpD.addStr_unique _ _ OpD.uniqueKeys_nil)
  · rw [hd]
    have h2 := isAdj_excOp (K := K) t.reverse hr
    rw [List.reverse_reverse] at h2
    exact isAdj_anti (isAdj_excOp t h) h2 p hp

/-- `abs(p)<1e-10` over ℂ. -/
noncomputable def tinyC (p : ℂ) : Bool := decide (‖p‖ < 1e-10)

theorem gen_transform (p : ℂ) (hp : tinyC p = false) (t : List ℕ) (h : t.length % 2 = 0) (h4 : t.length ≤ 4) (N : ℕ)
    (hN : ∀ i ∈ t, i < N) (hc : conj p = p) :
    ∃ C, (gen p t N).bind (OpD.transform Transform.jordanWigner) = some C ∧
      denPO C = p • (excOp t - excOp t.reverse : Oper ℂ) ∧ UniqueKeys C ∧ ∀ u ∈ C, u.1.length = N := by
  have hr : t.reverse.length % 2 = 0 := by simpa using h
  obtain ⟨A, g1, _, g2, _⟩ := C50_generator p hc t h N
  obtain ⟨a, a1, _, a3⟩ := C09_fermi_generate p (word t) N (word_ok t h)
  obtain ⟨b, b1, _, b3⟩ := C09_fermi_generate p (word t.reverse) N (word_ok _ hr)
  have hA : A = OpD.addStr (OpD.addStr [] a) (b.1, b.2 * (-1)) := by
    simp only [gen, a1, b1, bind, Option.bind, pure, Option.some.injEq] at g1
    exact g1.symm
  obtain ⟨sa, ca⟩ := generate_size _ _ _ _ a1
  obtain ⟨sb, cb⟩ := generate_size _ _ _ _ b1
  rw [word_length _ h] at sa
  rw [word_length _ hr, List.length_reverse] at sb
  have gi : ∀ x : ℂ, (x = p ∨ x = -p ∨ x = 0) → ∃ z, GI z ∧ x = z * p := by
    rintro x (rfl | rfl | rfl)
    · exact ⟨1, GI.one, by ring⟩
    · exact ⟨-1, GI.neg_one, by ring⟩
    · exact ⟨0, GI.zero, by ring⟩
  have hg : GIop p A := by
    rw [hA]
    refine ((GIop.nil p).addStr (gi _ ca)).addStr (gi _ ?_)
    rcases cb with h | h | h <;> simp [h]
  have hk : ∀ u ∈ A, u.1 = a.1 ∨ u.1 = b.1 := by
    intro u hu
    have hm : u.1 ∈ A.map (·.1) := List.mem_map_of_mem hu
    have := OpD.mem_keys_foldl_addStr [a, (b.1, b.2 * (-1))] ([] : OpD FStr ℂ) u.1
    simp only [List.foldl_cons, List.foldl_nil] at this
    rw [hA] at hm
    simpa using this.mp hm
  have hn : ¬ ‖p‖ < (1e-10 : ℝ) := by simpa [tinyC] using hp
  have hM : small (p / 2 ^ 4) = false := by
    rw [← Bool.not_eq_true, small_complex, norm_div, norm_pow]
    have h2 : ‖(2 : ℂ)‖ = 2 := by simp
    rw [h2, not_le, lt_div_iff₀ (by positivity)]
    have : (1e-12 : ℝ) * 2 ^ 4 < 1e-10 := by norm_num
    linarith [not_lt.mp hn]
  obtain ⟨C, c1, cu, c3, cl⟩ := Transform.transform_exact_scale Transform.jordanWigner (denF 0) Transform.jw_spec 4 p hM A N
    (by
      intro u hu
      rcases hk u hu with h | h <;> rw [h]
      · exact a3 (word_lt t ‹_› N hN)
      · exact b3 (word_lt _ hr N (by simpa using hN)))
    (by
      intro u hu
      refine ⟨?_, hg u hu⟩
      rcases hk u hu with h | h <;> rw [h] <;> omega)
  exact ⟨C, by rw [g1]; exact c1, by rw [c3, g2], cu, cl⟩

/-- **C50.** For any real parameters the Pauli strings assembled by the variational ansatz under Jordan–Wigner sum to
`Σ p (X − X†)` over the excitations whose parameter is not below `1e-10`, and this is anti-Hermitian. -/
theorem C50_assign (N : ℕ) (ts : List (List ℕ)) (ps : List ℂ)
    (ht : ∀ t ∈ ts, t.length % 2 = 0 ∧ t.length ≤ 4 ∧ ∀ i ∈ t, i < N) (hp : ∀ p ∈ ps, conj p = p) :
    ∃ psi, assign tinyC Transform.jordanWigner N ts ps = some psi ∧
      denPO psi = (((ts.zip ps).filter (fun x => !tinyC x.2)).map
        (fun x => x.2 • (excOp x.1 - excOp x.1.reverse : Oper ℂ))).sum ∧
      IsAdj (denPO psi) (-denPO psi) := by
  set l := (ts.zip ps).filter (fun x => !tinyC x.2) with hl
  have hall : ∀ x ∈ l, tinyC x.2 = false ∧ x.1.length % 2 = 0 ∧ x.1.length ≤ 4 ∧ (∀ i ∈ x.1, i < N) ∧ conj x.2 = x.2 := by
    intro x hx
    obtain ⟨h1, h2⟩ := List.mem_filter.mp hx
    have hm := List.of_mem_zip (show (x.1, x.2) ∈ ts.zip ps from h1)
    obtain ⟨q1, q2, q3⟩ := ht _ hm.1
    exact ⟨by simpa using h2, q1, q2, q3, hp _ hm.2⟩
  have key : ∀ l : List (List ℕ × ℂ), (∀ x ∈ l, tinyC x.2 = false ∧ x.1.length % 2 = 0 ∧ x.1.length ≤ 4 ∧
      (∀ i ∈ x.1, i < N) ∧ conj x.2 = x.2) →
      ∃ rs, l.mapM (fun x => (gen x.2 x.1 N).bind (OpD.transform Transform.jordanWigner)) = some rs ∧
        denPO rs.flatten = (l.map (fun x => x.2 • (excOp x.1 - excOp x.1.reverse : Oper ℂ))).sum ∧
        IsAdj (denPO rs.flatten) (-denPO rs.flatten) := by
    intro l
    induction l with
    | nil =>
      intro _
      refine ⟨[], by simp, by simp [denPO, denD], ?_⟩
      have : denPO ([] : List (POp ℂ)).flatten = 0 := by simp [denPO, denD]
      rw [this, neg_zero]
      have := (IsAdj.one (K := ℂ)).smul 0
      rwa [conj_zero, zero_smul] at this
    | cons x l ih =>
      intro h
      obtain ⟨rs, r1, r2, r3⟩ := ih (fun y hy => h y (by simp [hy]))
      obtain ⟨q1, q2, q3, q4, q5⟩ := h x (by simp)
      obtain ⟨C, c1, c2, _⟩ := gen_transform x.2 q1 x.1 q2 q3 N q4 q5
      have e : denPO (C :: rs).flatten = denPO C + denPO rs.flatten := by
        simp [denPO, denD]
      refine ⟨C :: rs, by simp [r1, c1], by rw [e, c2, r2]; simp, ?_⟩
      rw [e, neg_add]
      refine IsAdj.add ?_ r3
      rw [c2]
      have h2 := isAdj_excOp (K := ℂ) x.1.reverse (by simpa using q2)
      rw [List.reverse_reverse] at h2
      exact isAdj_anti (isAdj_excOp x.1 q2) h2 x.2 q5
  obtain ⟨rs, r1, r2, r3⟩ := key l hall
  exact ⟨rs.flatten, by rw [assign, ← hl, r1]; rfl, r2, r3⟩

/-- The entries of `getUCCAnsatz` meet the hypotheses of `C50_assign`. -/
theorem C50_entries (alpha beta initial : List ℕ) (N : ℕ) (hN : ∀ i ∈ alpha ++ beta, i < N) (L : List (List ℕ))
    (h : getUCC alpha beta initial true true false false = some L) :
    ∀ t ∈ L, t.length % 2 = 0 ∧ t.length ≤ 4 ∧ ∀ i ∈ t, i < N := by
  have hL : L = full alpha beta initial := by simpa [getUCC, full] using h.symm
  subst hL
  intro e he
  simp only [List.mem_append] at hN
  simp only [full, List.mem_append] at he
  rcases he with (he | he) | ((he | he) | he)
  · obtain ⟨i, j, hi, hj, rfl⟩ := mem_singles _ _ _ he
    rw [mem_occ] at hi; rw [mem_vir] at hj
    exact ⟨by simp, by simp, by simp [hN _ (Or.inl hi.1), hN _ (Or.inl hj.1)]⟩
  · obtain ⟨i, j, hi, hj, rfl⟩ := mem_singles _ _ _ he
    rw [mem_occ] at hi; rw [mem_vir] at hj
    exact ⟨by simp, by simp, by simp [hN _ (Or.inr hi.1), hN _ (Or.inr hj.1)]⟩
  · obtain ⟨i, k, l, j, hi, hk, hl, hj, h1, h2, rfl⟩ := mem_same _ _ _ he
    rw [mem_occ] at hi hk; rw [mem_vir] at hj hl
    exact ⟨by simp, by simp, by simp [hN _ (Or.inl hi.1), hN _ (Or.inl hk.1), hN _ (Or.inl hl.1), hN _ (Or.inl hj.1)]⟩
  · obtain ⟨i, k, l, j, hi, hk, hl, hj, h1, h2, rfl⟩ := mem_same _ _ _ he
    rw [mem_occ] at hi hk; rw [mem_vir] at hj hl
    exact ⟨by simp, by simp, by simp [hN _ (Or.inr hi.1), hN _ (Or.inr hk.1), hN _ (Or.inr hl.1), hN _ (Or.inr hj.1)]⟩
  · obtain ⟨i, k, l, j, hi, hk, hl, hj, h1, rfl⟩ := mem_mixed _ _ _ _ _ he
    rw [mem_occ] at hi hk; rw [mem_vir] at hj hl
    exact ⟨by simp, by simp, by simp [hN _ (Or.inl hi.1), hN _ (Or.inr hk.1), hN _ (Or.inr hl.1), hN _ (Or.inl hj.1)]⟩

/-- A generator for the only double excitation of two electrons in four orbitals. -/
example : (gen (K := GQ) 3 [0, 2, 3, 1] 4).map (fun A => A.map (·.2)) = some [3, -3] := by decide +kernel

end

end HQCA.Props

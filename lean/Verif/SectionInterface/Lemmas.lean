import Verif.SectionInterface.Model

/-! Helper lemmas for the insulation between coil sections. -/

set_option linter.unusedSectionVars false
set_option linter.unusedSimpArgs false

namespace Verif.SectionInterface

open Verif.Round

variable {K : Type} [Field K] [LinearOrder K] [IsStrictOrderedRing K] [FloorRing K]

theorem toNat_ceil_ge (x : K) : x ≤ ((⌈x⌉.toNat : ℕ) : K) := by
  have h1 : x ≤ ((⌈x⌉ : ℤ) : K) := Int.le_ceil x
  have h2 : (⌈x⌉ : ℤ) ≤ ((⌈x⌉.toNat : ℕ) : ℤ) := Int.self_le_toNat _
  have h3 : ((⌈x⌉ : ℤ) : K) ≤ (((⌈x⌉.toNat : ℕ) : ℤ) : K) := by exact_mod_cast h2
  have h4 : (((⌈x⌉.toNat : ℕ) : ℤ) : K) = ((⌈x⌉.toNat : ℕ) : K) := by norm_cast
  linarith

theorem roundFloat_one_ge (x : K) : x - 1 / 20 ≤ roundFloat x 1 := by
  have := (abs_le.mp (roundFloat_near x 1)).1
  norm_num at this ⊢
  linarith

theorem layersFor_spec {v ds t : K} {n : Nat} (h : layersFor v ds t = some n) :
    1 ≤ n ∧ v / ds / t ≤ n + 1 / 20 := by
  unfold layersFor at h
  split at h
  · cases h
  · simp only [Option.some.injEq] at h
    subst h
    constructor
    · have : (1 : ℤ) ≤ max 1 ⌈roundFloat (v / ds / t) 1⌉ := le_max_left _ _
      omega
    · have h1 : ⌈roundFloat (v / ds / t) 1⌉.toNat ≤ (max 1 ⌈roundFloat (v / ds / t) 1⌉).toNat :=
        Int.toNat_le_toNat (le_max_right _ _)
      have h2 := toNat_ceil_ge (roundFloat (v / ds / t) 1)
      have h3 := roundFloat_one_ge (v / ds / t)
      have h4 : ((⌈roundFloat (v / ds / t) 1⌉.toNat : ℕ) : K) ≤
          (((max 1 ⌈roundFloat (v / ds / t) 1⌉).toNat : ℕ) : K) := by exact_mod_cast h1
      linarith

theorem withLayers_ok {A : Type} {v ds t : K} {f : Nat → A} {a : A} (h : withLayers v ds t f = .ok a) :
    ∃ n, layersFor v ds t = some n ∧ a = f n := by
  unfold withLayers at h
  cases hl : layersFor v ds t with
  | none => rw [hl] at h; cases h
  | some n => rw [hl] at h; simp only [Res.ok.injEq] at h; exact ⟨n, rfl, h.symm⟩

theorem raise_ge {t dti : K} (ht : 0 < t) {n : Nat} (hn : 1 ≤ n) :
    n ≤ raiseToDti t dti n ∧ dti ≤ t * raiseToDti t dti n + t / 20 := by
  unfold raiseToDti
  split
  · rename_i h
    have hd : (n : K) ≤ dti / t := by
      rw [le_div_iff₀ ht]; linarith [mul_comm t (n : K)]
    constructor
    · have h1 := roundFloat_mono hd 1
      have h2 : roundFloat (n : K) 1 = n := by
        have := roundFloat_idem (K := K) (n : K) 1
        unfold roundFloat
        have e : ((n : K) * 10 ^ 1) = (((n * 10 : ℕ) : ℤ) : K) := by push_cast; ring
        rw [e, Round.round_intCast]
        push_cast
        field_simp
      rw [h2] at h1
      have h3 : (n : ℤ) ≤ ⌈roundFloat (dti / t) 1⌉ := by
        have := Int.ceil_le_ceil h1
        rwa [Int.ceil_natCast] at this
      omega
    · have h1 := toNat_ceil_ge (roundFloat (dti / t) 1)
      have h2 := roundFloat_one_ge (dti / t)
      have h3 : dti / t ≤ (⌈roundFloat (dti / t) 1⌉.toNat : K) + 1 / 20 := by linarith
      have h4 := mul_le_mul_of_nonneg_left h3 ht.le
      rw [mul_div_cancel₀ _ ht.ne'] at h4
      linarith
  · rename_i h
    exact ⟨le_refl _, by linarith [not_le.mp h]⟩

theorem thickerTape_ge (l : List (Option K × K)) (acc : K × K) :
    acc.1 ≤ (thickerTape l acc).1 ∧
      (∀ th v, (some th, v) ∈ l → th ≤ (thickerTape l acc).1) ∧
      (thickerTape l acc = acc ∨ (some (thickerTape l acc).1, (thickerTape l acc).2) ∈ l) := by
  induction l generalizing acc with
  | nil => simp [thickerTape]
  | cons x l ih =>
    obtain ⟨o, w⟩ := x
    cases o with
    | none =>
      simp only [thickerTape]
      obtain ⟨h1, h2, h3⟩ := ih acc
      refine ⟨h1, ?_, ?_⟩
      · intro th v hm
        rcases List.mem_cons.mp hm with e | e
        · cases e
        · exact h2 th v e
      · rcases h3 with h | h
        · exact Or.inl h
        · exact Or.inr (List.mem_cons_of_mem _ h)
    | some t0 =>
      simp only [thickerTape]
      by_cases c : t0 > acc.1
      · rw [if_pos c]
        obtain ⟨h1, h2, h3⟩ := ih (t0, w)
        refine ⟨le_trans c.le h1, ?_, ?_⟩
        · intro th v hm
          rcases List.mem_cons.mp hm with e | e
          · simp only [Prod.mk.injEq, Option.some.injEq] at e
            rw [e.1]; exact h1
          · exact h2 th v e
        · right
          rcases h3 with h | h
          · rw [h]; exact List.mem_cons_self
          · exact List.mem_cons_of_mem _ h
      · rw [if_neg c]
        obtain ⟨h1, h2, h3⟩ := ih acc
        refine ⟨h1, ?_, ?_⟩
        · intro th v hm
          rcases List.mem_cons.mp hm with e | e
          · simp only [Prod.mk.injEq, Option.some.injEq] at e
            rw [e.1]; exact le_trans (not_lt.mp c) h1
          · exact h2 th v e
        · rcases h3 with h | h
          · exact Or.inl h
          · exact Or.inr (List.mem_cons_of_mem _ h)

/-! What the `switch` guarantees. -/

theorem chooseSimple_ok {f : Bool} {l r : Wire K} {fiw aw : Bool} {v cr ds t : K} {c : Choice K}
    (h : chooseSimple f l r fiw aw v cr ds t = .ok c) :
    ∃ n, times l r v fiw = some n ∧ 1 ≤ c.layers ∧
      (c.creepage = cr ∨ (c.creepage = 0 ∧ aw = true ∧ 2 ≤ n)) ∧
      ((aw = true ∧ 1 ≤ n) ∨ v / ds / t ≤ c.layers + 1 / 20) := by
  unfold chooseSimple at h
  cases ht : times l r v fiw with
  | none => rw [ht] at h; cases h
  | some n =>
    rw [ht] at h
    simp only at h
    refine ⟨n, rfl, ?_⟩
    split at h
    · rename_i hn
      split at h
      · rename_i hc
        simp only [Res.ok.injEq] at h
        subst h
        exact ⟨le_refl _, Or.inr ⟨rfl, hn.2, by omega⟩, Or.inl ⟨hn.2, by omega⟩⟩
      · split at h
        · rename_i hc
          obtain ⟨k, hk, rfl⟩ := withLayers_ok h
          exact ⟨(layersFor_spec hk).1, Or.inr ⟨rfl, hn.2, by omega⟩, Or.inl ⟨hn.2, by omega⟩⟩
        · simp only [Res.ok.injEq] at h
          subst h
          exact ⟨le_refl _, Or.inl rfl, Or.inl ⟨hn.2, by omega⟩⟩
    · obtain ⟨k, hk, rfl⟩ := withLayers_ok h
      exact ⟨(layersFor_spec hk).1, Or.inl rfl, Or.inr (layersFor_spec hk).2⟩

theorem chooseDoubleStep_ok {l r : Wire K} {fiw aw m : Bool} {v ds t cr : K} {c : Choice K}
    (h : chooseDoubleStep l r fiw aw v ds t m cr = .ok c) :
    ∃ n, times l r v fiw = some n ∧ 1 ≤ c.layers ∧
      (c.creepage = cr ∨ (c.creepage = 0 ∧ aw = true ∧ 2 ≤ n)) ∧
      ((aw = true ∧ 3 ≤ n) ∨ v / ds / t ≤ c.layers + 1 / 20) := by
  unfold chooseDoubleStep at h
  cases ht : times l r v fiw with
  | none => rw [ht] at h; cases h
  | some n =>
    rw [ht] at h
    simp only at h
    refine ⟨n, rfl, ?_⟩
    split at h
    · rename_i hn
      simp only [Res.ok.injEq] at h
      subst h
      exact ⟨le_refl _, Or.inr ⟨rfl, hn.2, by omega⟩, Or.inl ⟨hn.2, hn.1⟩⟩
    · split at h
      · rename_i hc
        obtain ⟨k, hk, rfl⟩ := withLayers_ok h
        exact ⟨(layersFor_spec hk).1, Or.inr ⟨rfl, hc.2.2, by omega⟩, Or.inr (layersFor_spec hk).2⟩
      · obtain ⟨k, hk, rfl⟩ := withLayers_ok h
        exact ⟨(layersFor_spec hk).1, Or.inl rfl, Or.inr (layersFor_spec hk).2⟩

theorem chooseReinforced_ok {l r : Wire K} {fiw aw : Bool} {v ds t cr : K} {c : Choice K}
    (h : chooseReinforced l r fiw aw v cr ds t = .ok c) :
    ∃ n, times l r v fiw = some n ∧ 1 ≤ c.layers ∧
      (c.creepage = cr ∨ (c.creepage = 0 ∧ aw = true ∧ 3 ≤ n)) ∧
      ((aw = true ∧ 3 ≤ n) ∨ v / ds / t ≤ c.layers + 1 / 20) := by
  unfold chooseReinforced at h
  cases ht : times l r v fiw with
  | none => rw [ht] at h; cases h
  | some n =>
    rw [ht] at h
    simp only at h
    refine ⟨n, rfl, ?_⟩
    split at h
    · rename_i hn
      simp only [Res.ok.injEq] at h
      subst h
      exact ⟨le_refl _, Or.inr ⟨rfl, hn.2, hn.1⟩, Or.inl ⟨hn.2, hn.1⟩⟩
    · obtain ⟨k, hk, rfl⟩ := withLayers_ok h
      exact ⟨(layersFor_spec hk).1, Or.inl rfl, Or.inr (layersFor_spec hk).2⟩

theorem chooseDouble_ok {l r : Wire K} {fiw aw : Bool} {wv : Cls → Option K} {v cr ds t : K} {c : Choice K}
    {cls : Cls} (h : chooseDouble l r fiw aw wv v cr ds t = (.ok c, cls)) :
    cls = .double ∧ ∃ vb vs n m, wv .basic = some vb ∧ wv .supplementary = some vs ∧
      times l r v fiw = some n ∧ times l r (max vb vs) fiw = some m ∧ 1 ≤ c.layers ∧
      (c.creepage = cr ∨ (c.creepage = 0 ∧ aw = true ∧ (2 ≤ n ∨ 2 ≤ m))) ∧
      ((aw = true ∧ (3 ≤ n ∨ 3 ≤ m)) ∨ v / ds / t ≤ c.layers + 1 / 20 ∨
        max vb vs / ds / t ≤ c.layers + 1 / 20) := by
  unfold chooseDouble at h
  cases h1 : chooseDoubleStep l r fiw aw v ds t false cr with
  | throw => rw [h1] at h; simp at h
  | ub => rw [h1] at h; simp at h
  | ok tg =>
    rw [h1] at h
    simp only at h
    cases hb : wv .basic with
    | none => rw [hb] at h; simp at h
    | some vb =>
      rw [hb] at h
      simp only at h
      cases hs : wv .supplementary with
      | none => rw [hs] at h; simp at h
      | some vs =>
        rw [hs] at h
        simp only at h
        cases h2 : chooseDoubleStep l r fiw aw (max vb vs) ds t tg.mechanical tg.creepage with
        | throw => rw [h2] at h; simp at h
        | ub => rw [h2] at h; simp at h
        | ok sp =>
          rw [h2] at h
          simp only [Prod.mk.injEq, Res.ok.injEq] at h
          obtain ⟨hc, hcls⟩ := h
          obtain ⟨n, t1, g1, c1, e1⟩ := chooseDoubleStep_ok h1
          obtain ⟨m, t2, g2, c2, e2⟩ := chooseDoubleStep_ok h2
          subst hc
          refine ⟨hcls.symm, vb, vs, n, m, rfl, rfl, t1, t2, ?_, ?_, ?_⟩
          · exact le_min g1 g2
          · rcases c2 with c2 | ⟨z, a, k⟩
            · rcases c1 with c1 | ⟨z, a, k⟩
              · left; simp only; rw [c2, c1]
              · right; exact ⟨by simp only; rw [c2, z], a, Or.inl k⟩
            · right; exact ⟨z, a, Or.inr k⟩
          · simp only
            rcases e1 with ⟨a, k⟩ | e1
            · exact Or.inl ⟨a, Or.inl k⟩
            · rcases e2 with ⟨a, k⟩ | e2
              · exact Or.inl ⟨a, Or.inr k⟩
              · right
                rcases min_choice tg.layers sp.layers with e | e
                · left; rw [e]; exact e1
                · right; rw [e]; exact e2

/-! ## No more tapes than needed -/

theorem toNat_ceil_pred_lt (x : K) : ⌈x⌉.toNat = 0 ∨ ((⌈x⌉.toNat : ℕ) : K) - 1 < x := by
  by_cases h : ⌈x⌉ ≤ 0
  · left; omega
  · right
    have h1 : ((⌈x⌉.toNat : ℕ) : ℤ) = ⌈x⌉ := Int.toNat_of_nonneg (by omega)
    have h2 : ((⌈x⌉.toNat : ℕ) : K) = (⌈x⌉ : K) := by exact_mod_cast congrArg (Int.cast (R := K)) h1
    rw [h2]
    have := Int.ceil_lt_add_one x
    linarith

theorem roundFloat_one_le (x : K) : roundFloat x 1 ≤ x + 1 / 20 := by
  have := (abs_le.mp (roundFloat_near x 1)).2
  norm_num at this
  linarith

theorem layersFor_economy {v ds t : K} {n : Nat} (h : layersFor v ds t = some n) :
    n = 1 ∨ (n : K) - 1 < v / ds / t + 1 / 20 := by
  unfold layersFor at h
  split at h
  · cases h
  · simp only [Option.some.injEq] at h
    subst h
    rcases le_total ⌈roundFloat (v / ds / t) 1⌉ 1 with hle | hle
    · left; rw [max_eq_left hle]; rfl
    · right
      rw [max_eq_right hle]
      rcases toNat_ceil_pred_lt (roundFloat (v / ds / t) 1) with h0 | h0
      · omega
      · exact lt_of_lt_of_le h0 (roundFloat_one_le _)

theorem raise_economy {t dti : K} (n : Nat) :
    raiseToDti t dti n = n ∨ raiseToDti t dti n = 0 ∨ (raiseToDti t dti n : K) - 1 < dti / t + 1 / 20 := by
  unfold raiseToDti
  split
  · rcases toNat_ceil_pred_lt (roundFloat (dti / t) 1) with h0 | h0
    · exact Or.inr (Or.inl h0)
    · exact Or.inr (Or.inr (lt_of_lt_of_le h0 (roundFloat_one_le _)))
  · exact Or.inl rfl

theorem chooseSimple_economy {f : Bool} {l r : Wire K} {fiw aw : Bool} {v cr ds t : K} {c : Choice K}
    (h : chooseSimple f l r fiw aw v cr ds t = .ok c) : c.layers = 1 ∨ (c.layers : K) - 1 < v / ds / t + 1 / 20 := by
  unfold chooseSimple at h
  cases ht : times l r v fiw with
  | none => rw [ht] at h; cases h
  | some n =>
    rw [ht] at h
    simp only at h
    split at h
    · split at h
      · simp only [Res.ok.injEq] at h; subst h; exact Or.inl rfl
      · split at h
        · obtain ⟨k, hk, rfl⟩ := withLayers_ok h; exact layersFor_economy hk
        · simp only [Res.ok.injEq] at h; subst h; exact Or.inl rfl
    · obtain ⟨k, hk, rfl⟩ := withLayers_ok h; exact layersFor_economy hk

theorem chooseDoubleStep_economy {l r : Wire K} {fiw aw m : Bool} {v ds t cr : K} {c : Choice K}
    (h : chooseDoubleStep l r fiw aw v ds t m cr = .ok c) :
    c.layers = 1 ∨ (c.layers : K) - 1 < v / ds / t + 1 / 20 := by
  unfold chooseDoubleStep at h
  cases ht : times l r v fiw with
  | none => rw [ht] at h; cases h
  | some n =>
    rw [ht] at h
    simp only at h
    split at h
    · simp only [Res.ok.injEq] at h; subst h; exact Or.inl rfl
    · split at h
      · obtain ⟨k, hk, rfl⟩ := withLayers_ok h; exact layersFor_economy hk
      · obtain ⟨k, hk, rfl⟩ := withLayers_ok h; exact layersFor_economy hk

theorem chooseReinforced_economy {l r : Wire K} {fiw aw : Bool} {v ds t cr : K} {c : Choice K}
    (h : chooseReinforced l r fiw aw v cr ds t = .ok c) :
    c.layers = 1 ∨ (c.layers : K) - 1 < v / ds / t + 1 / 20 := by
  unfold chooseReinforced at h
  cases ht : times l r v fiw with
  | none => rw [ht] at h; cases h
  | some n =>
    rw [ht] at h
    simp only at h
    split at h
    · simp only [Res.ok.injEq] at h; subst h; exact Or.inl rfl
    · obtain ⟨k, hk, rfl⟩ := withLayers_ok h; exact layersFor_economy hk

theorem chooseDouble_economy {l r : Wire K} {fiw aw : Bool} {wv : Cls → Option K} {v cr ds t : K} {c : Choice K}
    {cls : Cls} (h : chooseDouble l r fiw aw wv v cr ds t = (.ok c, cls)) :
    ∃ vb vs, wv .basic = some vb ∧ wv .supplementary = some vs ∧
      (c.layers = 1 ∨ ((c.layers : K) - 1 < v / ds / t + 1 / 20 ∧
        (c.layers : K) - 1 < max vb vs / ds / t + 1 / 20)) := by
  unfold chooseDouble at h
  cases h1 : chooseDoubleStep l r fiw aw v ds t false cr with
  | throw => rw [h1] at h; simp at h
  | ub => rw [h1] at h; simp at h
  | ok tg =>
    rw [h1] at h
    simp only at h
    cases hb : wv .basic with
    | none => rw [hb] at h; simp at h
    | some vb =>
      rw [hb] at h
      simp only at h
      cases hs : wv .supplementary with
      | none => rw [hs] at h; simp at h
      | some vs =>
        rw [hs] at h
        simp only at h
        cases h2 : chooseDoubleStep l r fiw aw (max vb vs) ds t tg.mechanical tg.creepage with
        | throw => rw [h2] at h; simp at h
        | ub => rw [h2] at h; simp at h
        | ok sp =>
          rw [h2] at h
          simp only [Prod.mk.injEq, Res.ok.injEq] at h
          obtain ⟨hc, _⟩ := h
          obtain ⟨_, _, g1, _⟩ := chooseDoubleStep_ok h1
          obtain ⟨_, _, g2, _⟩ := chooseDoubleStep_ok h2
          have e1 := chooseDoubleStep_economy h1
          have e2 := chooseDoubleStep_economy h2
          subst hc
          refine ⟨vb, vs, rfl, rfl, ?_⟩
          simp only
          by_cases hone : min tg.layers sp.layers = 1
          · exact Or.inl hone
          · right
            have m1 : ((min tg.layers sp.layers : ℕ) : K) ≤ tg.layers := by exact_mod_cast min_le_left _ _
            have m2 : ((min tg.layers sp.layers : ℕ) : K) ≤ sp.layers := by exact_mod_cast min_le_right _ _
            constructor
            · rcases e1 with e | e
              · exfalso; apply hone; rw [e]; omega
              · linarith
            · rcases e2 with e | e
              · exfalso; apply hone; rw [e]; omega
              · linarith

end Verif.SectionInterface

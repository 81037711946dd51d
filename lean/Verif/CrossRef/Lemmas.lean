import Verif.CrossRef.Model
import Verif.Scoring.Lemmas
import Mathlib.Tactic.Linarith

/-! # Lemmas on the cross-referencer -/

set_option linter.unusedSimpArgs false
set_option linter.unusedSectionVars false

namespace Verif.CrossRef

open Verif.Scoring (Num)

variable {K : Type} [Field K] [LinearOrder K] [IsStrictOrderedRing K]

/-! ## Normalisation -/

theorem addContributions_linear {I : Type} (f : Num K → Option K) (hf : ∀ v, (f v).isSome = true) :
    ∀ (ms : List (I × K)) (ss : List (Num K)), ms.length ≤ ss.length →
    ∃ r, Scoring.addContributions f ms ss = .ok r ∧ r.map Prod.fst = ms.map Prod.fst := by
  intro ms
  induction ms with
  | nil => intro ss _; exact ⟨[], by cases ss <;> rfl, rfl⟩
  | cons p ms ih =>
    obtain ⟨i, t⟩ := p
    intro ss h
    cases ss with
    | nil => simp at h
    | cons s ss =>
      obtain ⟨r, hr, he⟩ := ih ss (by simpa using h)
      obtain ⟨c, hc⟩ := Option.isSome_iff_exists.mp (hf s)
      refine ⟨(i, t + c) :: r, ?_, by simp [he]⟩
      simp only [Scoring.addContributions, hr, hc]

theorem contribution_linear (w : K) (mn mx raw : K) :
    (Scoring.contribution id w true false mn mx raw).isSome = true := by
  simp only [Scoring.contribution]
  split <;> simp

/-- Without logarithms the normalisation always succeeds, keeps the items and sorts. -/
theorem crossNormalize_linear {I : Type} (w : K) (ms : List (I × K)) (ss : List (Num K)) (hne : ss ≠ [])
    (hlen : ms.length ≤ ss.length) : ∃ r, Scoring.crossNormalize id w true false ms ss = .ok r ∧
      (r.map Prod.fst).Perm (ms.map Prod.fst) ∧ r.Pairwise (fun a b => b.2 ≤ a.2) := by
  cases ss with
  | nil => exact absurd rfl hne
  | cons x l =>
    have other : ∃ r, (Scoring.Out.ok (Scoring.sortDesc (ms.map (fun p => (p.1, p.2 + w)))) : Scoring.Out I K) = .ok r ∧
        (r.map Prod.fst).Perm (ms.map Prod.fst) ∧ r.Pairwise (fun a b => b.2 ≤ a.2) := by
      refine ⟨_, rfl, ?_, Scoring.sortDesc_sorted _⟩
      refine ((Scoring.sortDesc_perm _).map _).trans (List.Perm.of_eq ?_)
      rw [List.map_map]
      rfl
    simp only [Scoring.crossNormalize]
    cases hm : Scoring.maxElement x l with
    | fin mx =>
      simp only
      obtain ⟨r, hr, he⟩ := addContributions_linear (I := I)
        (fun v => Scoring.contribution id w true false
          (Scoring.minOr (max Scoring.floor10 (mx * Scoring.floorRatio)) (Scoring.minElement x l)) mx
          (Scoring.project mx v)) (fun v => contribution_linear _ _ _ _) ms (x :: l) hlen
      rw [hr]
      exact ⟨_, rfl, he ▸ (Scoring.sortDesc_perm r).map _, Scoring.sortDesc_sorted r⟩
    | nan => exact other
    | pinf => exact other
    | ninf => exact other

theorem rescore_ok (w : K) (kept : List (Core K × K)) (ss : List (Num K)) (hlen : kept.length = ss.length) :
    ∃ out, rescore w kept ss = some out ∧ (out.map Prod.fst).Perm (kept.map Prod.fst) ∧
      out.Pairwise (fun a b => b.2 ≤ a.2) := by
  cases kept with
  | nil => exact ⟨[], rfl, by simp, List.Pairwise.nil⟩
  | cons p kept =>
    have hne : ss ≠ [] := by intro h; subst h; simp at hlen
    obtain ⟨r, hr, h1, h2⟩ := crossNormalize_linear w (p :: kept) ss hne (le_of_eq hlen)
    exact ⟨r, by simp only [rescore, hr], h1, h2⟩

/-- `rescore` with insertion sort, for computing examples. -/
def rescoreIns (weight : K) (kept : List (Core K × K)) (scores : List (Num K)) : Option (List (Core K × K)) :=
  match kept, scores with
  | [], _ => some []
  | _ :: _, [] => none
  | p :: ps, x :: l =>
    match Scoring.maxElement x l with
    | .fin mx =>
      let mn := Scoring.minOr (max Scoring.floor10 (mx * Scoring.floorRatio)) (Scoring.minElement x l)
      match Scoring.addContributions (fun v => Scoring.contribution id weight true false mn mx (Scoring.project mx v))
          (p :: ps) (x :: l) with
      | .ok r => some (Scoring.insSort r)
      | _ => none
    | _ => some (Scoring.insSort ((p :: ps).map (fun p => (p.1, p.2 + weight))))

theorem rescore_ins (weight : K) (kept : List (Core K × K)) (scores : List (Num K)) :
    rescore weight kept scores = rescoreIns weight kept scores := by
  cases kept with
  | nil => rfl
  | cons p ps =>
    cases scores with
    | nil => rfl
    | cons x l =>
      simp only [rescore, rescoreIns, Scoring.crossNormalize]
      cases Scoring.maxElement x l with
      | fin mx =>
        simp only
        cases Scoring.addContributions (fun v => Scoring.contribution id weight true false
          (Scoring.minOr (max Scoring.floor10 (mx * Scoring.floorRatio)) (Scoring.minElement x l)) mx
          (Scoring.project mx v)) (p :: ps) (x :: l) <;> simp [Scoring.sortDesc_eq_insSort]
      | _ => simp [Scoring.sortDesc_eq_insSort]

/-! ## Judging -/

theorem within_mono {ref x l l' : K} (h : l ≤ l') (hw : within ref x l = true) : within ref x l' = true := by
  simp only [within, decide_eq_true_eq] at *
  exact ⟨hw.1, lt_of_lt_of_le hw.2 h⟩

/-- A score accepted at one limit is the score accepted at any larger one. -/
theorem judge_mono (ref : Core K) {l l' : K} (h : l ≤ l') (f : Filter) (c : Core K) (s : K)
    (hj : judge ref l f c = some s) : judge ref l' f c = some s := by
  cases f with
  | permeance =>
    simp only [judge] at *
    split at hj
    · rename_i hw; rw [if_pos (within_mono h hw)]; exact hj
    · simp at hj
  | windowArea =>
    simp only [judge] at *
    split at hj
    · rename_i hw; rw [if_pos (within_mono h hw)]; exact hj
    · simp at hj
  | effectiveArea =>
    simp only [judge] at *
    split at hj
    · rename_i hw; rw [if_pos (within_mono h hw)]; exact hj
    · simp at hj
  | envelopingVolume =>
    simp only [judge] at *
    split at hj
    · rename_i hw
      simp only [Bool.and_eq_true] at hw
      rw [if_pos (by simp [within_mono h hw.1.1, within_mono h hw.1.2, within_mono h hw.2])]; exact hj
    · simp at hj
  | coreLosses =>
    simp only [judge] at *
    cases hr : ref.losses with
    | none => rw [hr] at hj; simp at hj
    | some r =>
      cases hc : c.losses with
      | none => rw [hr, hc] at hj; simp at hj
      | some q =>
        rw [hr, hc] at hj
        simp only at *
        split at hj
        · rename_i hw
          rw [if_pos ⟨hw.1, hw.2.imp (within_mono h) (fun x => le_trans x h)⟩]; exact hj
        · simp at hj
  | saturation => simpa only [judge] using hj

/-! ## Memory -/

/-- No two different cores of the catalogue share a name. -/
def NamesUnique (cat : List (Core K)) : Prop := ∀ c ∈ cat, ∀ d ∈ cat, c.name = d.name → c = d

/-- What is remembered about a core of the catalogue is what judging it at `limit` gives. -/
def Sound (cat : List (Core K)) (ref : Core K) (limit : K) (m : Memo K) : Prop :=
  (∀ f, ∀ c ∈ cat, ∀ s, m f c.name = some s → judge ref limit f c = some s) ∧
  ∀ x, m .coreLosses x ≠ none → m .saturation x ≠ none

theorem sound_empty (cat : List (Core K)) (ref : Core K) (limit : K) : Sound cat ref limit Memo.empty := by
  constructor
  · intro f c _ s h; simp [Memo.empty] at h
  · intro x h; simp [Memo.empty] at h

theorem sound_mono {cat : List (Core K)} {ref : Core K} {l l' : K} (h : l ≤ l') {m : Memo K} (hm : Sound cat ref l m) :
    Sound cat ref l' m :=
  ⟨fun f c hc s hs => judge_mono ref h f c s (hm.1 f c hc s hs), hm.2⟩

theorem sound_set {cat : List (Core K)} (hu : NamesUnique cat) {ref : Core K} {l : K} {m : Memo K}
    (hm : Sound cat ref l m) (f : Filter) (hf : f ≠ .coreLosses) (c : Core K) (hc : c ∈ cat) (s : K)
    (hj : judge ref l f c = some s) : Sound cat ref l (m.set f c.name s) := by
  constructor
  · intro g d hd t ht
    simp only [Memo.set] at ht
    split at ht
    · rename_i h
      simp only [Option.some.injEq] at ht
      obtain ⟨rfl, hn⟩ := h
      rw [hu d hd c hc hn, ← ht]
      exact hj
    · exact hm.1 g d hd t ht
  · intro x hx
    simp only [Memo.set] at *
    rw [if_neg (by rintro ⟨h, _⟩; exact hf h.symm)] at hx
    split
    · simp
    · exact hm.2 x hx

theorem sound_set2 {cat : List (Core K)} (hu : NamesUnique cat) {ref : Core K} {l : K} {m : Memo K}
    (hm : Sound cat ref l m) (c : Core K) (hc : c ∈ cat) (s x : K)
    (hj : judge ref l .coreLosses c = some s) (hs : judge ref l .saturation c = some x) :
    Sound cat ref l ((m.set .coreLosses c.name s).set .saturation c.name x) := by
  constructor
  · intro g d hd t ht
    simp only [Memo.set] at ht
    split at ht
    · rename_i h
      simp only [Option.some.injEq] at ht
      obtain ⟨rfl, hn⟩ := h
      rw [hu d hd c hc hn, ← ht]
      exact hs
    · split at ht
      · rename_i h
        simp only [Option.some.injEq] at ht
        obtain ⟨rfl, hn⟩ := h
        rw [hu d hd c hc hn, ← ht]
        exact hj
      · exact hm.1 g d hd t ht
  · intro y hy
    simp only [Memo.set] at *
    by_cases hn : y = c.name
    · simp [hn]
    · simp [hn] at hy ⊢
      exact hm.2 y hy

/-- The score as the vector holds it. -/
def fins (jd : Core K → Option K) (l : List (Core K × K)) : List (Num K) :=
  l.filterMap (fun p => (jd p.1).map Num.fin)

/-- The kept candidates. -/
def keeps (jd : Core K → Option K) (l : List (Core K × K)) : List (Core K × K) := l.filter (fun p => (jd p.1).isSome)

theorem keeps_fins (jd : Core K → Option K) (l : List (Core K × K)) : (keeps jd l).length = (fins jd l).length := by
  induction l with
  | nil => rfl
  | cons p l ih =>
    simp only [keeps, fins] at *
    cases h : jd p.1 <;> simp [h, ih]

theorem cullLoop_spec {cat : List (Core K)} (hu : NamesUnique cat) (ref : Core K) (limit : K) (f : Filter)
    (hf : f ≠ .coreLosses) : ∀ (l : List (Core K × K)) (m : Memo K), (∀ p ∈ l, p.1 ∈ cat) → Sound cat ref limit m →
    Sound cat ref limit (cullLoop f (judge ref limit f) m l).1 ∧
    (cullLoop f (judge ref limit f) m l).2.1 = keeps (judge ref limit f) l ∧
    (cullLoop f (judge ref limit f) m l).2.2 = fins (judge ref limit f) l := by
  intro l
  induction l with
  | nil => intro m _ hm; exact ⟨hm, rfl, rfl⟩
  | cons p l ih =>
    obtain ⟨c, t⟩ := p
    intro m hl hm
    have hc : c ∈ cat := hl (c, t) (by simp)
    have hl' : ∀ p ∈ l, p.1 ∈ cat := fun p hp => hl p (by simp [hp])
    simp only [cullLoop, keeps, fins, List.filter_cons, List.filterMap_cons]
    cases hmf : m f c.name with
    | some s =>
      have hj := hm.1 f c hc s hmf
      obtain ⟨h1, h2, h3⟩ := ih m hl' hm
      simp only [hj, Option.isSome_some, if_true, Option.map_some]
      exact ⟨h1, by rw [h2]; rfl, by rw [h3]; rfl⟩
    | none =>
      simp only
      cases hj : judge ref limit f c with
      | some s =>
        obtain ⟨h1, h2, h3⟩ := ih (m.set f c.name s) hl' (sound_set hu hm f hf c hc s hj)
        simp only [Option.isSome_some, if_true, Option.map_some]
        exact ⟨h1, by rw [h2]; rfl, by rw [h3]; rfl⟩
      | none =>
        obtain ⟨h1, h2, h3⟩ := ih m hl' hm
        simp only [Option.isSome_none, Bool.false_eq_true, if_false, Option.map_none]
        exact ⟨h1, h2, h3⟩

theorem saturation_judged {ref : Core K} {limit : K} {c : Core K} {s : K}
    (h : judge ref limit .coreLosses c = some s) : ∃ x, judge ref limit .saturation c = some x := by
  simp only [judge] at *
  cases hr : ref.losses with
  | none => rw [hr] at h; simp at h
  | some r =>
    cases hc : c.losses with
    | none => rw [hr, hc] at h; simp at h
    | some q => exact ⟨_, rfl⟩

/-- The saturation scores of the kept candidates. -/
def satFins (ref : Core K) (limit : K) (l : List (Core K × K)) : List (Num K) :=
  fins (judge ref limit .saturation) (keeps (judge ref limit .coreLosses) l)

theorem lossLoop_spec {cat : List (Core K)} (hu : NamesUnique cat) (ref : Core K) (limit : K) :
    ∀ (l : List (Core K × K)) (m : Memo K), (∀ p ∈ l, p.1 ∈ cat) → Sound cat ref limit m →
    Sound cat ref limit (lossLoop (judge ref limit .coreLosses) (judge ref limit .saturation) m l).1 ∧
    (lossLoop (judge ref limit .coreLosses) (judge ref limit .saturation) m l).2.1 =
      keeps (judge ref limit .coreLosses) l ∧
    (lossLoop (judge ref limit .coreLosses) (judge ref limit .saturation) m l).2.2.1 =
      fins (judge ref limit .coreLosses) l ∧
    (lossLoop (judge ref limit .coreLosses) (judge ref limit .saturation) m l).2.2.2 = satFins ref limit l := by
  intro l
  induction l with
  | nil => intro m _ hm; exact ⟨hm, rfl, rfl, rfl⟩
  | cons p l ih =>
    obtain ⟨c, t⟩ := p
    intro m hl hm
    have hc : c ∈ cat := hl (c, t) (by simp)
    have hl' : ∀ p ∈ l, p.1 ∈ cat := fun p hp => hl p (by simp [hp])
    simp only [lossLoop, keeps, fins, satFins, List.filter_cons, List.filterMap_cons]
    cases hmf : m .coreLosses c.name with
    | some s =>
      have hj := hm.1 .coreLosses c hc s hmf
      cases hms : m .saturation c.name with
      | none => exact absurd hms (hm.2 c.name (by simp [hmf]))
      | some x =>
        have hx := hm.1 .saturation c hc x hms
        obtain ⟨h1, h2, h3, h4⟩ := ih m hl' hm
        simp only [hj, Option.isSome_some, if_true, Option.map_some, List.filterMap_cons, hx]
        exact ⟨h1, by rw [h2]; rfl, by rw [h3]; rfl, by rw [h4]; rfl⟩
    | none =>
      simp only
      cases hj : judge ref limit .coreLosses c with
      | some s =>
        obtain ⟨x, hx⟩ := saturation_judged hj
        obtain ⟨h1, h2, h3, h4⟩ := ih _ hl' (sound_set2 hu hm c hc s x hj hx)
        simp only [hx, Option.isSome_some, if_true, Option.map_some, List.filterMap_cons]
        exact ⟨h1, by rw [h2]; rfl, by rw [h3]; rfl, by rw [h4]; rfl⟩
      | none =>
        obtain ⟨h1, h2, h3, h4⟩ := ih m hl' hm
        simp only [Option.isSome_none, Bool.false_eq_true, if_false, Option.map_none]
        exact ⟨h1, h2, h3, h4⟩

/-! ## One filter on a sound memory -/

/-- A list that came from `before` by dropping cores for which `ok` does not hold, sorted. -/
structure Step (ok : Core K → Bool) (before after : List (Core K × K)) : Prop where
  perm : (after.map Prod.fst).Perm ((before.map Prod.fst).filter ok)
  sorted : before.Pairwise (fun a b => b.2 ≤ a.2) → after.Pairwise (fun a b => b.2 ≤ a.2)

theorem Step.keeps {ok : Core K → Bool} {a b : List (Core K × K)} (h : Step ok a b) {c : Core K}
    (hc : c ∈ a.map Prod.fst) (hk : ok c = true) : c ∈ b.map Prod.fst :=
  h.perm.mem_iff.mpr (List.mem_filter.mpr ⟨hc, hk⟩)

theorem keeps_fst (jd : Core K → Option K) (l : List (Core K × K)) :
    (keeps jd l).map Prod.fst = (l.map Prod.fst).filter (fun c => (jd c).isSome) := by
  induction l with
  | nil => rfl
  | cons p l ih =>
    simp only [keeps] at *
    cases h : jd p.1 <;> simp [h, ih]

theorem geometricFilter_spec {cat : List (Core K)} (hu : NamesUnique cat) (ref : Core K) (limit weight : K) (f : Filter)
    (hf : f ≠ .coreLosses) (skip : Bool) (l : List (Core K × K)) (hl : ∀ p ∈ l, p.1 ∈ cat) :
    ∃ out, Step (fun c => decide (weight ≤ 0 ∨ skip = true) || (judge ref limit f c).isSome) l out ∧
      ∀ m, Sound cat ref limit m →
      ∃ m', Sound cat ref limit m' ∧ geometricFilter ref limit weight f skip m l = some (m', out) := by
  by_cases hw : weight ≤ 0 ∨ skip = true
  · refine ⟨l, ⟨by simp [hw], fun h => h⟩, fun m hm => ⟨m, hm, ?_⟩⟩
    simp only [geometricFilter]
    rw [if_pos hw]
  · obtain ⟨out, h1, h2, h3⟩ := rescore_ok weight _ _ (keeps_fins (judge ref limit f) l)
    refine ⟨out, ⟨?_, fun _ => h3⟩, fun m hm => ?_⟩
    · refine h2.trans (List.Perm.of_eq ?_)
      rw [keeps_fst]
      simp [hw]
    · obtain ⟨g1, g2, g3⟩ := cullLoop_spec hu ref limit f hf l m hl hm
      refine ⟨_, g1, ?_⟩
      simp only [geometricFilter]
      rw [if_neg hw, g2, g3, h1]
      rfl

theorem fins_keeps_length (ref : Core K) (limit : K) (l : List (Core K × K)) :
    (satFins ref limit l).length = (keeps (judge ref limit .coreLosses) l).length := by
  have : keeps (judge ref limit .saturation) (keeps (judge ref limit .coreLosses) l) =
      keeps (judge ref limit .coreLosses) l := by
    apply List.filter_eq_self.mpr
    intro p hp
    have := (List.mem_filter.mp hp).2
    obtain ⟨s, hs⟩ := Option.isSome_iff_exists.mp this
    obtain ⟨x, hx⟩ := saturation_judged hs
    simp [hx]
  rw [satFins, ← keeps_fins, this]

theorem lossFilter_spec {cat : List (Core K)} (hu : NamesUnique cat) (ref : Core K) (limit weight satWeight : K)
    (l : List (Core K × K)) (hl : ∀ p ∈ l, p.1 ∈ cat) :
    ∃ out, Step (fun c => decide (weight ≤ 0 ∨ ref.losses = none) || (judge ref limit .coreLosses c).isSome) l out ∧
      ∀ m, Sound cat ref limit m →
      ∃ m', Sound cat ref limit m' ∧ lossFilter ref limit weight satWeight m l = some (m', out) := by
  by_cases hw : weight ≤ 0 ∨ ref.losses = none
  · refine ⟨l, ⟨by simp [hw], fun h => h⟩, fun m hm => ⟨m, hm, ?_⟩⟩
    simp only [lossFilter]
    rw [if_pos hw]
  · obtain ⟨out, h1, h2, h3⟩ := rescore_ok weight _ _ (keeps_fins (judge ref limit .coreLosses) l)
    have hlen : out.length = (satFins ref limit l).length := by
      have := h2.length_eq
      simp only [List.length_map] at this
      rw [this, fins_keeps_length]
    obtain ⟨out2, k1, k2, k3⟩ := rescore_ok satWeight out _ hlen
    refine ⟨out2, ⟨?_, fun _ => k3⟩, fun m hm => ?_⟩
    · refine (k2.trans h2).trans (List.Perm.of_eq ?_)
      rw [keeps_fst]
      simp [hw]
    · obtain ⟨g1, g2, g3, g4⟩ := lossLoop_spec hu ref limit l m hl hm
      refine ⟨_, g1, ?_⟩
      simp only [lossFilter]
      rw [if_neg hw, g2, g3, g4, h1]
      simp only [k1]
      rfl

/-! ## All filters -/

theorem Step.subset {ok : Core K → Bool} {a b : List (Core K × K)} (h : Step ok a b) :
    ∀ p ∈ b, (∃ q ∈ a, q.1 = p.1) ∧ ok p.1 = true := by
  intro p hp
  have := h.perm.mem_iff.mp (List.mem_map.mpr ⟨p, hp, rfl⟩)
  obtain ⟨h1, h2⟩ := List.mem_filter.mp this
  obtain ⟨q, hq, he⟩ := List.mem_map.mp h1
  exact ⟨⟨q, hq, he⟩, h2⟩

theorem Step.subperm {ok : Core K → Bool} {a b : List (Core K × K)} (h : Step ok a b) :
    (b.map Prod.fst).Subperm (a.map Prod.fst) :=
  h.perm.subperm.trans List.filter_sublist.subperm

theorem prune_sublist (n : Nat) (l : List (Core K × K)) : (prune n l).Sublist l := by
  unfold prune
  split
  · exact List.take_sublist _ _
  · exact List.Sublist.refl _

theorem cut_sublist (n : Nat) (l : List (Core K × K)) : (cut n l).Sublist l ∧ (cut n l).length ≤ n := by
  unfold cut
  split
  · exact ⟨List.take_sublist _ _, by simp⟩
  · exact ⟨List.Sublist.refl _, by omega⟩

/-- The core is accepted by every enabled filter. -/
def accepted (ref : Core K) (w : Filter → K) (limit : K) (c : Core K) : Bool :=
  (decide (w .permeance ≤ 0) || (judge ref limit .permeance c).isSome) &&
  (decide (w .windowArea ≤ 0) || (judge ref limit .windowArea c).isSome) &&
  (decide (w .envelopingVolume ≤ 0 ∨ (ref.depth ≤ 0 ∨ ref.height ≤ 0 ∨ ref.width ≤ 0)) ||
    (judge ref limit .envelopingVolume c).isSome) &&
  (decide (w .effectiveArea ≤ 0) || (judge ref limit .effectiveArea c).isSome) &&
  (decide (w .coreLosses ≤ 0 ∨ ref.losses = none) || (judge ref limit .coreLosses c).isSome)

theorem applyFilters_spec {cat : List (Core K)} (hu : NamesUnique cat) (ref : Core K) (w : Filter → K) (n : Nat)
    (cores : List (Core K × K)) (hl : ∀ p ∈ cores, p.1 ∈ cat)
    (hs : cores.Pairwise (fun a b => b.2 ≤ a.2)) (limit : K) :
    ∃ out, out.length ≤ n ∧ out.Pairwise (fun a b => b.2 ≤ a.2) ∧
      (out.map Prod.fst).Subperm (cores.map Prod.fst) ∧ (∀ p ∈ out, accepted ref w limit p.1 = true) ∧
      (∀ m, Sound cat ref limit m →
        ∃ m', Sound cat ref limit m' ∧ applyFilters ref w n cores limit m = some (m', out)) ∧
      (((w .coreLosses ≤ 0 ∨ ref.losses = none) ∨ 10 * cores.length ≤ 11 * n) → out.length < n →
        ∀ q ∈ cores, accepted ref w limit q.1 = true → q.1 ∈ out.map Prod.fst) := by
  have hin : ∀ {ok : Core K → Bool} {a b : List (Core K × K)}, Step ok a b → (∀ p ∈ a, p.1 ∈ cat) →
      ∀ p ∈ b, p.1 ∈ cat := by
    intro ok a b h ha p hp
    obtain ⟨⟨q, hq, he⟩, _⟩ := h.subset p hp
    exact he ▸ ha q hq
  obtain ⟨l1, s1, f1⟩ := geometricFilter_spec hu ref limit (w .permeance) .permeance (by decide) false cores hl
  have i1 := hin s1 hl
  obtain ⟨l2, s2, f2⟩ := geometricFilter_spec hu ref limit (w .windowArea) .windowArea (by decide) false l1 i1
  have i2 := hin s2 i1
  obtain ⟨l3, s3, f3⟩ := geometricFilter_spec hu ref limit (w .envelopingVolume) .envelopingVolume (by decide)
    (decide (ref.depth ≤ 0 ∨ ref.height ≤ 0 ∨ ref.width ≤ 0)) l2 i2
  have i3 := hin s3 i2
  obtain ⟨l4, s4, f4⟩ := geometricFilter_spec hu ref limit (w .effectiveArea) .effectiveArea (by decide) false l3 i3
  have i4 := hin s4 i3
  have i4' : ∀ p ∈ prune n l4, p.1 ∈ cat := fun p hp => i4 p ((prune_sublist n l4).subset hp)
  obtain ⟨l5, s5, f5⟩ := lossFilter_spec hu ref limit (w .coreLosses) (w .saturation) (prune n l4) i4'
  refine ⟨cut n l5, (cut_sublist n l5).2, ?_, ?_, ?_, ?_, ?_⟩
  · exact (s5.sorted ((s4.sorted (s3.sorted (s2.sorted (s1.sorted hs)))).sublist (prune_sublist n l4))).sublist
      (cut_sublist n l5).1
  · exact ((cut_sublist n l5).1.map _).subperm.trans (s5.subperm.trans (((prune_sublist n l4).map _).subperm.trans
      (s4.subperm.trans (s3.subperm.trans (s2.subperm.trans s1.subperm)))))
  · intro p hp
    obtain ⟨⟨q5, hq5, e5⟩, k5⟩ := s5.subset p ((cut_sublist n l5).1.subset hp)
    obtain ⟨⟨q4, hq4, e4⟩, k4⟩ := s4.subset q5 ((prune_sublist n l4).subset hq5)
    obtain ⟨⟨q3, hq3, e3⟩, k3⟩ := s3.subset q4 hq4
    obtain ⟨⟨q2, hq2, e2⟩, k2⟩ := s2.subset q3 hq3
    obtain ⟨_, k1⟩ := s1.subset q2 hq2
    rw [e5] at k4 e4
    rw [e4] at k3 e3
    rw [e3] at k2 e2
    rw [e2] at k1
    simp only [Bool.false_eq_true, or_false, decide_eq_true_eq] at k1 k2 k3 k4 k5
    simp only [accepted, k1, k2, k3, k4, k5, Bool.and_self]
  · intro m hm
    obtain ⟨m1, hm1, e1⟩ := f1 m hm
    obtain ⟨m2, hm2, e2⟩ := f2 m1 hm1
    obtain ⟨m3, hm3, e3⟩ := f3 m2 hm2
    obtain ⟨m4, hm4, e4⟩ := f4 m3 hm3
    obtain ⟨m5, hm5, e5⟩ := f5 m4 hm4
    refine ⟨m5, hm5, ?_⟩
    simp only [applyFilters, e1, e2, e3, e4, e5]
  · intro hcase hlt q hq hacc
    have hcut : cut n l5 = l5 := by
      unfold cut at hlt ⊢
      by_cases hc : n < l5.length
      · rw [if_pos hc, List.length_take] at hlt; omega
      · rw [if_neg hc]
    rw [hcut] at hlt ⊢
    have hprune : prune n l4 = l4 := by
      unfold prune
      by_cases hc : 11 * n < 10 * l4.length
      · exfalso
        rcases hcase with hw | hlen
        · have hl5 := s5.perm.length_eq
          have hok : ((prune n l4).map Prod.fst).filter
              (fun c => decide (w .coreLosses ≤ 0 ∨ ref.losses = none) || (judge ref limit .coreLosses c).isSome) =
              (prune n l4).map Prod.fst := by
            rw [List.filter_eq_self]
            intro c _
            simp only [hw, decide_true, Bool.true_or]
          rw [hok, List.length_map, List.length_map] at hl5
          unfold prune at hl5
          rw [if_pos hc, List.length_take] at hl5
          omega
        · have := (s4.subperm.trans (s3.subperm.trans (s2.subperm.trans s1.subperm))).length_le
          simp only [List.length_map] at this
          omega
      · rw [if_neg hc]
    rw [hprune] at s5
    simp only [accepted, Bool.and_eq_true] at hacc
    obtain ⟨⟨⟨⟨a1, a2⟩, a3⟩, a4⟩, a5⟩ := hacc
    have b1 := s1.keeps (List.mem_map.mpr ⟨q, hq, rfl⟩) (by simpa using a1)
    have b2 := s2.keeps b1 (by simpa using a2)
    have b3 := s3.keeps b2 (by simpa using a3)
    have b4 := s4.keeps b3 (by simpa using a4)
    exact s5.keeps b4 (by simpa using a5)

/-! ## Filters on a memory filled at a larger limit -/

/-- `after` came from `before` by dropping cores, all that are left are `ok`, and `after` is sorted if `before` is. -/
structure WeakStep (ok : Core K → Bool) (before after : List (Core K × K)) : Prop where
  subperm : (after.map Prod.fst).Subperm (before.map Prod.fst)
  good : ∀ p ∈ after, ok p.1 = true
  sorted : before.Pairwise (fun a b => b.2 ≤ a.2) → after.Pairwise (fun a b => b.2 ≤ a.2)

theorem WeakStep.mem {ok : Core K → Bool} {a b : List (Core K × K)} (h : WeakStep ok a b) :
    ∀ p ∈ b, ∃ q ∈ a, q.1 = p.1 := by
  intro p hp
  have := h.subperm.subset (List.mem_map.mpr ⟨p, hp, rfl⟩)
  obtain ⟨q, hq, he⟩ := List.mem_map.mp this
  exact ⟨q, hq, he⟩

theorem cullLoop_weak {cat : List (Core K)} (hu : NamesUnique cat) (ref : Core K) {limit big : K} (hb : limit ≤ big)
    (f : Filter) (hf : f ≠ .coreLosses) : ∀ (l : List (Core K × K)) (m : Memo K), (∀ p ∈ l, p.1 ∈ cat) →
    Sound cat ref big m →
    Sound cat ref big (cullLoop f (judge ref limit f) m l).1 ∧
    (cullLoop f (judge ref limit f) m l).2.1.Sublist l ∧
    (∀ p ∈ (cullLoop f (judge ref limit f) m l).2.1, (judge ref big f p.1).isSome = true) ∧
    (cullLoop f (judge ref limit f) m l).2.1.length = (cullLoop f (judge ref limit f) m l).2.2.length := by
  intro l
  induction l with
  | nil => intro m _ hm; exact ⟨hm, List.Sublist.refl _, by simp [cullLoop], rfl⟩
  | cons p l ih =>
    obtain ⟨c, t⟩ := p
    intro m hl hm
    have hc : c ∈ cat := hl (c, t) (by simp)
    have hl' : ∀ p ∈ l, p.1 ∈ cat := fun p hp => hl p (by simp [hp])
    simp only [cullLoop]
    cases hmf : m f c.name with
    | some s =>
      have hj := hm.1 f c hc s hmf
      obtain ⟨h1, h2, h3, h4⟩ := ih m hl' hm
      refine ⟨h1, h2.cons_cons _, ?_, by simp [h4]⟩
      intro p hp
      rcases List.mem_cons.mp hp with rfl | hp
      · simp [hj]
      · exact h3 p hp
    | none =>
      simp only
      cases hj : judge ref limit f c with
      | some s =>
        have hj' := judge_mono ref hb f c s hj
        obtain ⟨h1, h2, h3, h4⟩ := ih (m.set f c.name s) hl' (sound_set hu hm f hf c hc s hj')
        refine ⟨h1, h2.cons_cons _, ?_, by simp [h4]⟩
        intro p hp
        rcases List.mem_cons.mp hp with rfl | hp
        · simp [hj']
        · exact h3 p hp
      | none =>
        obtain ⟨h1, h2, h3, h4⟩ := ih m hl' hm
        exact ⟨h1, h2.cons _, h3, h4⟩

theorem lossLoop_weak {cat : List (Core K)} (hu : NamesUnique cat) (ref : Core K) {limit big : K} (hb : limit ≤ big) :
    ∀ (l : List (Core K × K)) (m : Memo K), (∀ p ∈ l, p.1 ∈ cat) → Sound cat ref big m →
    let r := lossLoop (judge ref limit .coreLosses) (judge ref limit .saturation) m l
    Sound cat ref big r.1 ∧ r.2.1.Sublist l ∧
    (∀ p ∈ r.2.1, (judge ref big .coreLosses p.1).isSome = true) ∧ r.2.1.length = r.2.2.1.length ∧
    r.2.1.length = r.2.2.2.length := by
  intro l
  induction l with
  | nil => intro m _ hm; exact ⟨hm, List.Sublist.refl _, by simp [lossLoop], rfl, rfl⟩
  | cons p l ih =>
    obtain ⟨c, t⟩ := p
    intro m hl hm
    have hc : c ∈ cat := hl (c, t) (by simp)
    have hl' : ∀ p ∈ l, p.1 ∈ cat := fun p hp => hl p (by simp [hp])
    simp only [lossLoop]
    cases hmf : m .coreLosses c.name with
    | some s =>
      have hj := hm.1 .coreLosses c hc s hmf
      obtain ⟨h1, h2, h3, h4, h5⟩ := ih m hl' hm
      refine ⟨h1, h2.cons_cons _, ?_, by simp [h4], by simp [h5]⟩
      intro p hp
      rcases List.mem_cons.mp hp with rfl | hp
      · simp [hj]
      · exact h3 p hp
    | none =>
      simp only
      cases hj : judge ref limit .coreLosses c with
      | some s =>
        obtain ⟨x, hx⟩ := saturation_judged hj
        have hj' := judge_mono ref hb _ c s hj
        obtain ⟨h1, h2, h3, h4, h5⟩ := ih _ hl' (sound_set2 hu hm c hc s x hj' (judge_mono ref hb _ c x hx))
        simp only [hx]
        refine ⟨h1, h2.cons_cons _, ?_, by simp [h4], by simp [h5]⟩
        intro p hp
        rcases List.mem_cons.mp hp with rfl | hp
        · simp [hj']
        · exact h3 p hp
      | none =>
        obtain ⟨h1, h2, h3, h4, h5⟩ := ih m hl' hm
        simp only
        exact ⟨h1, h2.cons _, h3, h4, h5⟩

theorem geometricFilter_weak {cat : List (Core K)} (hu : NamesUnique cat) (ref : Core K) {limit big : K} (hb : limit ≤ big)
    (weight : K) (f : Filter) (hf : f ≠ .coreLosses) (skip : Bool) (l : List (Core K × K)) (hl : ∀ p ∈ l, p.1 ∈ cat)
    (m : Memo K) (hm : Sound cat ref big m) :
    ∃ m' out, Sound cat ref big m' ∧ geometricFilter ref limit weight f skip m l = some (m', out) ∧
      WeakStep (fun c => decide (weight ≤ 0 ∨ skip = true) || (judge ref big f c).isSome) l out := by
  by_cases hw : weight ≤ 0 ∨ skip = true
  · refine ⟨m, l, hm, ?_, List.Subperm.refl _, by simp [hw], fun h => h⟩
    simp only [geometricFilter]
    rw [if_pos hw]
  · obtain ⟨g1, g2, g3, g4⟩ := cullLoop_weak hu ref hb f hf l m hl hm
    obtain ⟨out, h1, h2, h3⟩ := rescore_ok weight _ _ g4
    refine ⟨_, out, g1, ?_, (h2.subperm.trans (g2.map _).subperm), ?_, fun _ => h3⟩
    · simp only [geometricFilter]
      rw [if_neg hw, h1]
      rfl
    · intro p hp
      have := h2.mem_iff.mp (List.mem_map.mpr ⟨p, hp, rfl⟩)
      obtain ⟨q, hq, he⟩ := List.mem_map.mp this
      simp [← he, g3 q hq]

theorem lossFilter_weak {cat : List (Core K)} (hu : NamesUnique cat) (ref : Core K) {limit big : K} (hb : limit ≤ big)
    (weight satWeight : K) (l : List (Core K × K)) (hl : ∀ p ∈ l, p.1 ∈ cat) (m : Memo K) (hm : Sound cat ref big m) :
    ∃ m' out, Sound cat ref big m' ∧ lossFilter ref limit weight satWeight m l = some (m', out) ∧
      WeakStep (fun c => decide (weight ≤ 0 ∨ ref.losses = none) || (judge ref big .coreLosses c).isSome) l out := by
  by_cases hw : weight ≤ 0 ∨ ref.losses = none
  · refine ⟨m, l, hm, ?_, List.Subperm.refl _, by simp [hw], fun h => h⟩
    simp only [lossFilter]
    rw [if_pos hw]
  · obtain ⟨g1, g2, g3, g4, g5⟩ := lossLoop_weak hu ref hb l m hl hm
    obtain ⟨out, h1, h2, h3⟩ := rescore_ok weight _ _ g4
    obtain ⟨out2, k1, k2, k3⟩ := rescore_ok satWeight out _
      ((by simpa only [List.length_map] using h2.length_eq : out.length = _).trans g5)
    refine ⟨_, out2, g1, ?_, ((k2.trans h2).subperm.trans (g2.map _).subperm), ?_, fun _ => k3⟩
    · simp only [lossFilter]
      rw [if_neg hw, h1]
      simp only [k1]
      rfl
    · intro p hp
      have := (k2.trans h2).mem_iff.mp (List.mem_map.mpr ⟨p, hp, rfl⟩)
      obtain ⟨q, hq, he⟩ := List.mem_map.mp this
      simp [← he, g3 q hq]

theorem applyFilters_weak {cat : List (Core K)} (hu : NamesUnique cat) (ref : Core K) (w : Filter → K) (n : Nat)
    (cores : List (Core K × K)) (hl : ∀ p ∈ cores, p.1 ∈ cat) (hs : cores.Pairwise (fun a b => b.2 ≤ a.2))
    {limit big : K} (hb : limit ≤ big) (m : Memo K) (hm : Sound cat ref big m) :
    ∃ m' out, Sound cat ref big m' ∧ applyFilters ref w n cores limit m = some (m', out) ∧ out.length ≤ n ∧
      out.Pairwise (fun a b => b.2 ≤ a.2) ∧ (out.map Prod.fst).Subperm (cores.map Prod.fst) ∧
      (∀ p ∈ out, accepted ref w big p.1 = true) := by
  have hin : ∀ {ok : Core K → Bool} {a b : List (Core K × K)}, WeakStep ok a b → (∀ p ∈ a, p.1 ∈ cat) →
      ∀ p ∈ b, p.1 ∈ cat := by
    intro ok a b h ha p hp
    obtain ⟨q, hq, he⟩ := h.mem p hp
    exact he ▸ ha q hq
  obtain ⟨m1, l1, hm1, f1, s1⟩ := geometricFilter_weak hu ref hb (w .permeance) .permeance (by decide) false cores hl m hm
  have i1 := hin s1 hl
  obtain ⟨m2, l2, hm2, f2, s2⟩ := geometricFilter_weak hu ref hb (w .windowArea) .windowArea (by decide) false l1 i1 m1 hm1
  have i2 := hin s2 i1
  obtain ⟨m3, l3, hm3, f3, s3⟩ := geometricFilter_weak hu ref hb (w .envelopingVolume) .envelopingVolume (by decide)
    (decide (ref.depth ≤ 0 ∨ ref.height ≤ 0 ∨ ref.width ≤ 0)) l2 i2 m2 hm2
  have i3 := hin s3 i2
  obtain ⟨m4, l4, hm4, f4, s4⟩ := geometricFilter_weak hu ref hb (w .effectiveArea) .effectiveArea (by decide) false l3 i3
    m3 hm3
  have i4 := hin s4 i3
  have i4' : ∀ p ∈ prune n l4, p.1 ∈ cat := fun p hp => i4 p ((prune_sublist n l4).subset hp)
  obtain ⟨m5, l5, hm5, f5, s5⟩ := lossFilter_weak hu ref hb (w .coreLosses) (w .saturation) (prune n l4) i4' m4 hm4
  refine ⟨m5, cut n l5, hm5, ?_, (cut_sublist n l5).2, ?_, ?_, ?_⟩
  · simp only [applyFilters, f1, f2, f3, f4, f5]
  · exact (s5.sorted ((s4.sorted (s3.sorted (s2.sorted (s1.sorted hs)))).sublist (prune_sublist n l4))).sublist
      (cut_sublist n l5).1
  · exact ((cut_sublist n l5).1.map _).subperm.trans (s5.subperm.trans (((prune_sublist n l4).map _).subperm.trans
      (s4.subperm.trans (s3.subperm.trans (s2.subperm.trans s1.subperm)))))
  · intro p hp
    have hp5 := (cut_sublist n l5).1.subset hp
    have k5 := s5.good p hp5
    obtain ⟨q5, hq5, e5⟩ := s5.mem p hp5
    have hq5' := (prune_sublist n l4).subset hq5
    have k4 := s4.good q5 hq5'
    obtain ⟨q4, hq4, e4⟩ := s4.mem q5 hq5'
    have k3 := s3.good q4 hq4
    obtain ⟨q3, hq3, e3⟩ := s3.mem q4 hq4
    have k2 := s2.good q3 hq3
    obtain ⟨q2, hq2, e2⟩ := s2.mem q3 hq3
    have k1 := s1.good q2 hq2
    rw [e5] at k4 e4
    rw [e4] at k3 e3
    rw [e3] at k2 e2
    rw [e2] at k1
    simp only [Bool.false_eq_true, or_false, decide_eq_true_eq] at k1 k2 k3 k4 k5
    simp only [accepted, k1, k2, k3, k4, k5, Bool.and_self]

end Verif.CrossRef

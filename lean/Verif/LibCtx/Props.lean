import Verif.LibCtx.Model
import Mathlib.Tactic.Linarith

/-! # Properties C05 and C06: loading a library document, adviser constraints -/

namespace Verif.LibCtx

open Verif

set_option linter.unusedSectionVars false
set_option linter.unusedSimpArgs false

variable {K I : Type} [LinearOrder K]

/-! ## C05 -/

/-- Specification of the entries of a node: names and parsed items, or `none` when some entry is malformed. -/
def EntryOf (parse : String → Json → Option I) (key : Option String) (el : Json) (n : String) (v : I) : Prop :=
  (el.get? "name" = some (.str n) ∨ ((∀ m, el.get? "name" ≠ some (.str m)) ∧ key = some n)) ∧
  parse n el = some v

/-- Specification: `l` is the list of entries of the node. -/
def EntriesOf (parse : String → Json → Option I) (node : Json) (l : List (String × I)) : Prop :=
  match node with
  | .null => l = []
  | .arr els => List.Forall₂ (fun el nv => EntryOf parse none el nv.1 nv.2) els l
  | .obj ms => List.Forall₂ (fun m nv => EntryOf parse (some m.1) m.2 nv.1 nv.2) ms l
  | _ => False

theorem entriesOfArray_iff (parse : String → Json → Option I) (els : List Json) (l : List (String × I)) :
    entriesOfArray parse els = some l ↔
      List.Forall₂ (fun el nv => EntryOf parse none el nv.1 nv.2) els l := by
  induction els generalizing l with
  | nil => simp only [entriesOfArray]; constructor
           · intro h; simp at h; subst h; exact .nil
           · intro h; cases h; rfl
  | cons el els ih =>
    simp only [entriesOfArray]
    constructor
    · intro h
      split at h
      · rename_i name hname
        split at h
        · rename_i v hv
          split at h
          · rename_i r hr
            simp at h; subst h
            exact .cons ⟨Or.inl hname, hv⟩ ((ih r).mp hr)
          · simp at h
        · simp at h
      · simp at h
    · intro h
      cases h with
      | cons h1 h2 =>
        rename_i nv l'
        obtain ⟨n, v⟩ := nv
        obtain ⟨hn, hv⟩ := h1
        rcases hn with hn | ⟨_, hk⟩
        · rw [hn]; simp only; rw [hv, (ih l').mpr h2]
        · simp at hk

theorem entriesOfObject_iff (parse : String → Json → Option I) (ms : List (String × Json))
    (l : List (String × I)) :
    entriesOfObject parse ms = some l ↔
      List.Forall₂ (fun m nv => EntryOf parse (some m.1) m.2 nv.1 nv.2) ms l := by
  induction ms generalizing l with
  | nil => simp only [entriesOfObject]; constructor
           · intro h; simp at h; subst h; exact .nil
           · intro h; cases h; rfl
  | cons m ms ih =>
    obtain ⟨key, el⟩ := m
    simp only [entriesOfObject]
    generalize hname : entryName key el = name
    have hspec : ∀ n, (el.get? "name" = some (.str n) ∨
        ((∀ m, el.get? "name" ≠ some (.str m)) ∧ some key = some n)) ↔ n = name := by
      intro n
      unfold entryName at hname
      split at hname
      · rename_i n' h'; subst hname; rw [h']; simp [eq_comm]
      · rename_i h'; subst hname
        constructor
        · rintro (h | ⟨_, h⟩)
          · exact absurd h (h' n)
          · simpa using h.symm
        · intro h; exact Or.inr ⟨h', by rw [h]⟩
    constructor
    · intro h
      split at h
      · rename_i v hv
        split at h
        · rename_i r hr
          simp at h; subst h
          exact .cons ⟨(hspec name).mpr rfl, hv⟩ ((ih r).mp hr)
        · simp at h
      · simp at h
    · intro h
      cases h with
      | cons h1 h2 =>
        rename_i nv l'
        obtain ⟨n, v⟩ := nv
        obtain ⟨hn, hv⟩ := h1
        have := (hspec n).mp hn
        subst this
        rw [hv, (ih l').mpr h2]

theorem forEachEntry_iff (parse : String → Json → Option I) (node : Json) (l : List (String × I)) :
    forEachEntry parse node = some l ↔ EntriesOf parse node l := by
  cases node with
  | null => simp [forEachEntry, EntriesOf, eq_comm]
  | arr els => exact entriesOfArray_iff parse els l
  | obj ms => exact entriesOfObject_iff parse ms l
  | bool b => simp [forEachEntry, EntriesOf]
  | num r => simp [forEachEntry, EntriesOf]
  | str s => simp [forEachEntry, EntriesOf]

/-- Specification of a successful load of one kind: replaced by the document's entries when the document
has the kind, otherwise untouched. -/
def KindLoaded (parse : Kind → String → Json → Option I) (data : Json) (k : Kind) (old new : Ctx I) : Prop :=
  match data.get? k.key with
  | none => new.kinds k = old.kinds k
  | some node => ∃ l, EntriesOf (parse k) node l ∧ new.kinds k = some l

/-- The kind is present in the document with a malformed entry (or is of a wrong JSON type). -/
def Malformed (parse : Kind → String → Json → Option I) (data : Json) (k : Kind) : Prop :=
  ∃ node, data.get? k.key = some node ∧ ∀ l, ¬ EntriesOf (parse k) node l

theorem loadKind_ok (parse : Kind → String → Json → Option I) (data : Json) (k : Kind) (c : Ctx I)
    (h : (loadKind parse data k c).2 = false) :
    KindLoaded parse data k c (loadKind parse data k c).1 ∧
    (loadKind parse data k c).1.replace = c.replace ∧
    (∀ k', k' ≠ k → (loadKind parse data k c).1.kinds k' = c.kinds k') ∧ ¬ Malformed parse data k := by
  cases hd : data.get? k.key with
  | none => simp [loadKind, KindLoaded, Malformed, hd]
  | some node =>
    cases hl : forEachEntry (parse k) node with
    | none => simp [loadKind, hd, hl] at h
    | some l =>
      have he := (forEachEntry_iff _ _ _).mp hl
      simp only [loadKind, KindLoaded, Malformed, hd, hl]
      refine ⟨⟨l, he, by simp⟩, trivial, fun k' hk' => by simp [hk'], ?_⟩
      rintro ⟨node', hn, hall⟩
      simp at hn; subst hn
      exact hall l he

theorem loadKind_throws (parse : Kind → String → Json → Option I) (data : Json) (k : Kind) (c : Ctx I)
    (h : (loadKind parse data k c).2 = true) :
    (loadKind parse data k c).1 = c ∧ Malformed parse data k := by
  cases hd : data.get? k.key with
  | none => simp [loadKind, hd] at h
  | some node =>
    cases hl : forEachEntry (parse k) node with
    | none =>
      simp only [loadKind, Malformed, hd, hl]
      refine ⟨trivial, node, rfl, fun l he => ?_⟩
      rw [(forEachEntry_iff _ _ _).mpr he] at hl
      simp at hl
    | some l => simp [loadKind, hd, hl] at h

theorem loadKinds_spec (parse : Kind → String → Json → Option I) (data : Json) (ks : List Kind)
    (hks : ks.Nodup) (c : Ctx I) :
    let r := loadKinds parse data ks c
    r.1.replace = c.replace ∧ (∀ k, k ∉ ks → r.1.kinds k = c.kinds k) ∧
    (r.2 = false → ∀ k ∈ ks, KindLoaded parse data k c r.1 ∧ ¬ Malformed parse data k) ∧
    (r.2 = true → ∃ pre k post, ks = pre ++ k :: post ∧ Malformed parse data k ∧
      (∀ k' ∈ pre, KindLoaded parse data k' c r.1 ∧ ¬ Malformed parse data k') ∧
      (∀ k' ∈ k :: post, r.1.kinds k' = c.kinds k')) := by
  induction ks generalizing c with
  | nil => simp [loadKinds]
  | cons k ks ih =>
    have hks' := List.nodup_cons.mp hks
    simp only [loadKinds]
    cases hr : (loadKind parse data k c).2 with
    | true =>
      have := loadKind_throws parse data k c hr
      simp only [if_true, hr, this.1, true_and]
      refine ⟨by simp, by simp, fun _ => ⟨[], k, ks, rfl, this.2, by simp, by simp⟩⟩
    | false =>
      have h0 := loadKind_ok parse data k c hr
      have hi := ih hks'.2 (loadKind parse data k c).1
      simp only [Bool.false_eq_true, if_false]
      obtain ⟨h1, h2, h3, h4⟩ := hi
      have keyk : KindLoaded parse data k c (loadKinds parse data ks (loadKind parse data k c).1).1 := by
        have := h0.1
        unfold KindLoaded at this ⊢
        rw [h2 k hks'.1]; exact this
      have keep : ∀ k' ∈ ks, ∀ x : Ctx I, KindLoaded parse data k' (loadKind parse data k c).1 x →
          KindLoaded parse data k' c x := by
        intro k' hk' x hx
        have hne : k' ≠ k := fun e => hks'.1 (e ▸ hk')
        unfold KindLoaded at hx ⊢
        rw [← h0.2.2.1 k' hne]; exact hx
      refine ⟨h1.trans h0.2.1, ?_, ?_, ?_⟩
      · intro k' hk'
        rw [List.mem_cons, not_or] at hk'
        rw [h2 k' hk'.2, h0.2.2.1 k' hk'.1]
      · intro hf k' hk'
        rcases List.mem_cons.mp hk' with rfl | hk'
        · exact ⟨keyk, h0.2.2.2⟩
        · exact ⟨keep k' hk' _ (h3 hf k' hk').1, (h3 hf k' hk').2⟩
      · intro ht
        obtain ⟨pre, k1, post, e, hm, hpre, hpost⟩ := h4 ht
        refine ⟨k :: pre, k1, post, by rw [e]; rfl, hm, ?_, ?_⟩
        · intro k' hk'
          rcases List.mem_cons.mp hk' with rfl | hk'
          · exact ⟨keyk, h0.2.2.2⟩
          · have hin : k' ∈ ks := by rw [e]; exact List.mem_append_left _ hk'
            exact ⟨keep k' hin _ (hpre k' hk').1, (hpre k' hk').2⟩
        · intro k' hk'
          have hin : k' ∈ ks := by rw [e]; exact List.mem_append_right _ hk'
          have hne : k' ≠ k := fun e => hks'.1 (e ▸ hin)
          rw [hpost k' hk', h0.2.2.1 k' hne]

/-- **C05 (success half)**: the call returns exactly when no kind of the document is malformed, and then
every kind present holds exactly the document's entries, every absent kind is untouched, and the mode is the
requested one. -/
theorem load_success (parse : Kind → String → Json → Option I) (data : Json) (replace : Bool) (c : Ctx I) :
    ((loadFromJson parse data replace c).2 = false ↔ ∀ k, ¬ Malformed parse data k) ∧
    ((loadFromJson parse data replace c).2 = false →
      (loadFromJson parse data replace c).1.replace = replace ∧
      ∀ k, KindLoaded parse data k c (loadFromJson parse data replace c).1) := by
  have hs := loadKinds_spec parse data kindOrder (by decide) { c with replace := replace }
  have hall : ∀ k : Kind, k ∈ kindOrder := by intro k; cases k <;> decide
  unfold loadFromJson
  generalize loadKinds parse data kindOrder _ = r at hs ⊢
  obtain ⟨h1, _, h3, h4⟩ := hs
  refine ⟨⟨fun h k => (h3 h k (hall k)).2, fun h => ?_⟩, fun h => ⟨h1, fun k => ?_⟩⟩
  · cases hr : r.2 with
    | false => rfl
    | true => obtain ⟨_, k, _, _, hm, _⟩ := h4 hr; exact absurd hm (h k)
  · exact (h3 h k (hall k)).1

/-- **C05 (failure half, partial)**: when the call throws, the kinds up to the first malformed one (in the
order shapes, materials, cores, wires, bobbins, insulation materials, wire materials) have already been
replaced, each one entirely, and that kind and all later ones are untouched.  Missing with respect to C05:
the earlier kinds and the mode are NOT rolled back, see `load_not_atomic`. -/
theorem load_failure_partial (parse : Kind → String → Json → Option I) (data : Json) (replace : Bool)
    (c : Ctx I) (h : (loadFromJson parse data replace c).2 = true) :
    ∃ pre k post, kindOrder = pre ++ k :: post ∧ Malformed parse data k ∧
      (∀ k' ∈ pre, KindLoaded parse data k' c (loadFromJson parse data replace c).1 ∧
        ¬ Malformed parse data k') ∧
      (∀ k' ∈ k :: post, (loadFromJson parse data replace c).1.kinds k' = c.kinds k') ∧
      (loadFromJson parse data replace c).1.replace = replace := by
  have hs := loadKinds_spec parse data kindOrder (by decide) { c with replace := replace }
  obtain ⟨h1, _, _, h4⟩ := hs
  obtain ⟨pre, k, post, e, hm, hpre, hpost⟩ := h4 h
  exact ⟨pre, k, post, e, hm, hpre, hpost, h1⟩

/-- A parser for examples: accepts only objects. -/
def parse0 : Kind → String → Json → Option Nat
  | _, _, .obj ms => some ms.length
  | _, _, _ => none

/-- A document with a good wire and a wire material without name. -/
def doc0 : Json :=
  .obj [("wireMaterials", .arr [.obj []]), ("wires", .arr [.obj [("name", .str "w")]])]

/-- **C05 is false as stated**: a document whose wires are fine and whose wire materials are malformed makes
the call throw, yet the wires and the mode of the context have changed. -/
theorem load_not_atomic :
    (loadFromJson parse0 doc0 true ⟨false, fun _ => none⟩).2 = true ∧
    (loadFromJson parse0 doc0 true ⟨false, fun _ => none⟩).1.replace = true ∧
    (loadFromJson parse0 doc0 true ⟨false, fun _ => none⟩).1.kinds .wires = some [("w", 1)] := by
  decide

/-- A well-formed document meets the hypotheses of `load_success`. -/
example : (loadFromJson parse0 (.obj [("wires", .obj [("a", .obj []), ("b", .obj [("name", .str "c")])])]) true
    ⟨false, fun _ => none⟩).1.kinds .wires = some [("a", 0), ("c", 1)] := by decide

/-! ## C06 -/

variable {N : Type} [DecidableEq N]

/-- Specification of acceptance: in the allow list if there is one, and not in the block list, up to letter
case. -/
def Accepted (up : N → N) (f : FilterSet N) (name : N) : Prop :=
  (f.allowed = [] ∨ ∃ a ∈ f.allowed, up a = up name) ∧ ¬ ∃ b ∈ f.blocked, up b = up name

theorem containsFolded_iff (up : N → N) (u : N) (l : List N) :
    containsFolded up u l = true ↔ ∃ a ∈ l, up a = u := by
  induction l with
  | nil => simp [containsFolded]
  | cons a l ih =>
    simp only [containsFolded, List.mem_cons, exists_eq_or_imp]
    split
    · rename_i h; simp [h]
    · rename_i h; simp [h, ih]

/-- **C06**: the acceptance predicate of the adviser constraints. -/
theorem acceptsEnum_iff (up : N → N) (f : FilterSet N) (name : N) :
    acceptsEnum up f name = true ↔ Accepted up f name := by
  unfold acceptsEnum Accepted FilterSet.isEmpty
  cases ha : f.allowed with
  | nil =>
    cases hb : f.blocked with
    | nil => simp
    | cons b bs =>
      simp only [List.isEmpty_nil, List.isEmpty_cons, Bool.and_false, Bool.false_eq_true, if_false,
        Bool.not_true, Bool.false_and, Bool.not_false, Bool.true_and, true_or, true_and]
      rw [← containsFolded_iff up (up name) (b :: bs)]
      cases containsFolded up (up name) (b :: bs) <;> simp
  | cons a as =>
    simp only [List.isEmpty_cons, Bool.false_and, Bool.false_eq_true, if_false, Bool.not_false,
      Bool.true_and]
    rw [← containsFolded_iff up (up name) (a :: as), ← containsFolded_iff up (up name) f.blocked]
    cases containsFolded up (up name) (a :: as) with
    | false => simp
    | true =>
      cases hb : f.blocked with
      | nil => simp [containsFolded]
      | cons b bs => cases containsFolded up (up name) (b :: bs) <;> simp

/-- **C06**: the case-sensitive predicate of the public struct. -/
theorem accepts_iff (f : FilterSet N) (v : N) :
    f.accepts v = true ↔ (f.allowed = [] ∨ v ∈ f.allowed) ∧ v ∉ f.blocked := by
  unfold FilterSet.accepts
  cases ha : f.allowed with
  | nil => simp
  | cons a as =>
    by_cases h1 : v ∈ a :: as
    · by_cases h2 : v ∈ f.blocked
      · simp [h2]
      · have : (a :: as).contains v = true := by simpa using h1
        simp only [List.isEmpty_cons, Bool.not_false, this, Bool.not_true, Bool.and_false]
        simp [h2]; simpa using h1
    · have : (a :: as).contains v = false := by simpa using h1
      simp only [List.isEmpty_cons, Bool.not_false, this, Bool.and_self, if_true]
      simp; intro h; exact absurd (by simpa using h) h1

/-- The class (family, material type) a reference stands for in the catalogue. -/
def Resolves (catalog : SMap K N) : Ref N K → N → Prop
  | .inline n, m => n = m
  | .named k, m => catalog.find? k = some m

/-- Specification for one constraint on a core: no constraint, or the reference resolves to an accepted
class. -/
def RefAccepted (up : N → N) (catalog : SMap K N) (f : FilterSet N) (r : Ref N K) : Prop :=
  (f.allowed = [] ∧ f.blocked = []) ∨ ∃ n, Resolves catalog r n ∧ Accepted up f n

theorem refOk_iff (up : N → N) (catalog : SMap K N) (f : FilterSet N) (r : Ref N K) :
    refOk up catalog f r = true ↔ RefAccepted up catalog f r := by
  unfold refOk RefAccepted
  have hemp : f.isEmpty = true ↔ f.allowed = [] ∧ f.blocked = [] := by
    simp [FilterSet.isEmpty]
  by_cases h : f.isEmpty = true
  · simp only [h, if_true, true_iff]; exact Or.inl (hemp.mp h)
  · simp only [h, if_false]
    rw [hemp] at h
    simp only [h, false_or]
    cases r with
    | inline n => simp [Resolves, acceptsEnum_iff]
    | named k =>
      simp only [Resolves]
      cases SMap.find? catalog k with
      | none => simp
      | some n => simp [acceptsEnum_iff]

/-- **C06 (cores)**: the filtered list is a subsequence of the input made of exactly the cores whose shape
and material are accepted. -/
theorem filterCores_spec {C : Type} (up : N → N) (refs : C → CoreRefs N K) (shapes materials : SMap K N)
    (fs fm : FilterSet N) (cores : List C) :
    (filterCores up refs shapes materials fs fm cores).Sublist cores ∧
    (∀ c, c ∈ filterCores up refs shapes materials fs fm cores ↔ c ∈ cores ∧
      RefAccepted up shapes fs (refs c).shape ∧ RefAccepted up materials fm (refs c).material) ∧
    (∀ c [DecidableEq C], RefAccepted up shapes fs (refs c).shape →
      RefAccepted up materials fm (refs c).material →
      (filterCores up refs shapes materials fs fm cores).count c = cores.count c) ∧
    filterCores up refs shapes materials fs fm (filterCores up refs shapes materials fs fm cores)
      = filterCores up refs shapes materials fs fm cores := by
  have hgo : ∀ l : List C, filterCores.go up refs shapes materials fs fm l
      = l.filter (fun c => refOk up shapes fs (refs c).shape && refOk up materials fm (refs c).material) := by
    intro l
    induction l with
    | nil => rfl
    | cons c l ih =>
      simp only [filterCores.go, List.filter_cons, ih]
      cases refOk up shapes fs (refs c).shape <;> cases refOk up materials fm (refs c).material <;> simp
  have heq : ∀ l : List C, filterCores up refs shapes materials fs fm l
      = l.filter (fun c => refOk up shapes fs (refs c).shape && refOk up materials fm (refs c).material) := by
    intro l
    unfold filterCores
    split
    · rename_i h
      simp only [Bool.and_eq_true] at h
      symm
      rw [List.filter_eq_self]
      intro c _
      simp [refOk, h.1, h.2]
    · exact hgo l
  rw [heq]
  refine ⟨List.filter_sublist, ?_, ?_, ?_⟩
  · intro c; simp [List.mem_filter, refOk_iff]
  · intro c _ h1 h2
    rw [List.count_filter]
    simp [refOk_iff, h1, h2]
  · rw [heq, List.filter_filter]; congr 1; funext c; simp

/-- **C06 (wires)**: the filtered map keeps exactly the wires of accepted type, under their names. -/
theorem filterWires_spec {W : Type} (up : N → N) (typeOf : W → N) (f : FilterSet N) (wires : SMap K W)
    (hw : SMap.Sorted wires) (k : K) (w : W) :
    (filterWires up typeOf f wires).find? k = some w ↔
      wires.find? k = some w ∧ Accepted up f (typeOf w) := by
  have hgo : ∀ (l out : SMap K W), SMap.Sorted l → (∀ kv ∈ l, out.find? kv.1 = none) →
      ∀ k w, (filterWires.go up typeOf f l out).find? k = some w ↔
        out.find? k = some w ∨ (SMap.find? l k = some w ∧ Accepted up f (typeOf w)) := by
    intro l
    induction l with
    | nil => intro out _ _ k w; simp [filterWires.go, SMap.find?]
    | cons a l ih =>
      obtain ⟨k', w'⟩ := a
      intro out hl hout k w
      have hl' := List.pairwise_cons.mp hl
      have hk' : out.find? k' = none := hout (k', w') List.mem_cons_self
      have hfresh : SMap.find? l k' = none := SMap.find?_none_of_lt (fun a ha => hl'.1 a ha)
      simp only [filterWires.go]
      by_cases hacc : Accepted up f (typeOf w')
      · rw [if_pos ((acceptsEnum_iff _ _ _).mpr hacc), hk']
        rw [ih (out.insert k' w') hl'.2 (by
          intro kv hkv
          rw [SMap.find?_insert, if_neg (ne_of_gt (hl'.1 kv hkv))]
          exact hout kv (List.mem_cons_of_mem _ hkv))]
        rw [SMap.find?_insert]
        simp only [SMap.find?]
        by_cases hk : k = k'
        · subst hk
          simp only [if_true, hfresh, hk']
          constructor
          · rintro (h | h)
            · refine Or.inr ⟨h, ?_⟩; simp at h; subst h; exact hacc
            · simp at h
          · rintro (h | h)
            · simp at h
            · exact Or.inl h.1
        · simp only [hk, if_false]
      · have : acceptsEnum up f (typeOf w') = false := by
          cases h : acceptsEnum up f (typeOf w') with
          | false => rfl
          | true => exact absurd ((acceptsEnum_iff _ _ _).mp h) hacc
        rw [this]
        simp only [Bool.false_eq_true, if_false]
        rw [ih out hl'.2 (fun kv hkv => hout kv (List.mem_cons_of_mem _ hkv))]
        simp only [SMap.find?]
        by_cases hk : k = k'
        · subst hk
          simp only [if_true, hfresh, hk']
          constructor
          · rintro (h | h) <;> simp at h
          · rintro (h | ⟨h, h2⟩)
            · simp at h
            · simp at h; subst h; exact absurd h2 hacc
        · simp only [hk, if_false]
  unfold filterWires
  split
  · rename_i h
    have hacc : Accepted up f (typeOf w) := by
      rw [← acceptsEnum_iff]; simp [acceptsEnum, h]
    simp [hacc]
  · rw [hgo wires [] hw (fun _ _ => rfl)]
    simp [SMap.find?]

/-- Concrete instances: an allow and a block list, matched without regard to case. -/
example : filterCores (C := Nat) (N := Nat) (K := Nat) (fun n => n / 10)
    (fun c => ⟨.inline c, .named c⟩) [] [(31, 7)] ⟨[30], []⟩ ⟨[], [99]⟩ [31, 32, 45] = [31] := by decide
example : filterWires (W := Nat) (N := Nat) (K := Nat) (fun n => n / 10) id ⟨[], [31]⟩
    [(1, 35), (2, 45)] = [(2, 45)] := by decide

end Verif.LibCtx

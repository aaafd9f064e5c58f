import Verif.NbTools.Aug
/-!
C271: merging two n-best lists.
-/
namespace Thot.NbTools

open Thot
open Thot.SentHandler (joinWords Word fields_join)
open Thot.Awk (fields)
open Thot.PhrTools (leText)

/-! ### Specification -/

/-- The header without weights. -/
def bareHeader : List W → W
  | [] => []
  | [n] => n ++ " -".toList
  | n :: ns => n ++ " - , ".toList ++ bareHeader ns

/-- An n-best list: its components with their weights, and its entries. -/
structure Nbl where
  comps : List (W × W)
  entries : List Entry

def Nbl.lines (n : Nbl) : List W := headerLine n.comps :: n.entries.map entryLine

structure Nbl.Ok (n : Nbl) : Prop where
  ne : n.comps ≠ []
  comps : HeaderOk n.comps
  entries : ∀ e ∈ n.entries, e.Ok ∧ e.score ≠ "#".toList

/-- The entry without score, its words separated by one blank. -/
def bare (e : Entry) : W :=
  joinWords (["-".toList, "|||".toList] ++ e.feats ++ ["|||".toList] ++
    (match e.states with | none => [] | some s => s ++ ["|||".toList]) ++ e.trans)

/-- The merged list of two lists: their entries without score, each once, in alphabetical order, after the header of the first. -/
def IsMerge (n1 n2 : Nbl) (out : List W) : Prop :=
  ∃ es, out = ("# ".toList ++ bareHeader (n1.comps.map Prod.fst)) :: es ∧
    (∀ x, x ∈ es ↔ ∃ e, (e ∈ n1.entries ∨ e ∈ n2.entries) ∧ x = bare e) ∧ es.Nodup ∧ es.Pairwise fun x y => leText x y = true

/-- Full statement of C271: two lists with the same components are merged, and no entry is printed for others. -/
def C271_full : Prop := ∀ n1 n2 : Nbl, n1.Ok → n2.Ok →
  (n1.comps.map Prod.fst = n2.comps.map Prod.fst → IsMerge n1 n2 (mergeNbl n1.lines n2.lines)) ∧
  (n1.comps.map Prod.fst ≠ n2.comps.map Prod.fst → (mergeNbl n1.lines n2.lines).length ≤ 1)

/-! ### Proof -/

theorem leText_antisymm : ∀ a b : W, leText a b = true → leText b a = true → a = b := by
  intro a
  induction a with
  | nil =>
    intro b _ h
    cases b with
    | nil => rfl
    | cons d b => cases h
  | cons c a ih =>
    intro b h1 h2
    cases b with
    | nil => cases h1
    | cons d b =>
      rw [leText] at h1 h2
      by_cases hcd : c < d
      · rw [if_neg (char_lt_asymm hcd)] at h2
        by_cases e : d = c
        · subst e; exact absurd hcd (char_lt_irrefl d)
        · rw [if_neg e] at h2; cases h2
      · rw [if_neg hcd] at h1
        by_cases e : c = d
        · subst e
          rw [if_pos rfl] at h1
          rw [if_neg hcd, if_pos rfl] at h2
          rw [ih b h1 h2]
        · rw [if_neg e] at h1; cases h1

theorem uniq_spec : ∀ (l : List W), l.Pairwise (fun x y => leText x y = true) →
    (∀ x, x ∈ uniq l ↔ x ∈ l) ∧ (uniq l).Nodup ∧ (uniq l).Pairwise fun x y => leText x y = true := by
  intro l
  induction l with
  | nil => intro _; exact ⟨fun _ => Iff.rfl, List.nodup_nil, List.Pairwise.nil⟩
  | cons a l ih =>
    intro hp
    obtain ⟨ha, hl⟩ := List.pairwise_cons.1 hp
    obtain ⟨h1, h2, h3⟩ := ih hl
    cases l with
    | nil => exact ⟨fun _ => Iff.rfl, by show [a].Nodup; simp, by show [a].Pairwise _; simp⟩
    | cons b l =>
      by_cases e : a = b
      · have : uniq (a :: b :: l) = uniq (b :: l) := by show (if a = b then _ else _) = _; rw [if_pos e]
        rw [this]
        refine ⟨fun x => ?_, h2, h3⟩
        rw [h1]
        constructor
        · exact List.mem_cons_of_mem _
        · intro hx
          rcases List.mem_cons.1 hx with rfl | hx
          · rw [e]; exact List.mem_cons_self
          · exact hx
      · have : uniq (a :: b :: l) = a :: uniq (b :: l) := by show (if a = b then _ else _) = _; rw [if_neg e]
        rw [this]
        have hna : a ∉ b :: l := by
          intro hm
          rcases List.mem_cons.1 hm with hm | hm
          · exact e hm
          · apply e
            exact leText_antisymm a b (ha b List.mem_cons_self) ((List.pairwise_cons.1 hl).1 a hm)
        refine ⟨fun x => ?_, List.nodup_cons.2 ⟨fun hm => hna ((h1 a).1 hm), h2⟩,
          List.pairwise_cons.2 ⟨fun y hy => ha y ((h1 y).1 hy), h3⟩⟩
        rw [List.mem_cons, List.mem_cons, h1]

theorem noScore_append (a b : List W) : noScore (a ++ b) = noScore a ++ noScore b := by
  unfold noScore; rw [List.filter_append, List.map_append]

theorem noScore_lines {n : Nbl} (h : n.Ok) : noScore n.lines = n.entries.map bare := by
  have hh : (fields ' ' (headerLine n.comps)).headD [] = ['#'] := by
    rw [headerLine_eq, fields_blank, fields_word (w := ['#']) ⟨by decide, by decide⟩]; rfl
  have hlines : noScore n.lines = noScore (n.entries.map entryLine) := by
    unfold noScore Nbl.lines
    rw [List.filter_cons_of_neg (by rw [hh]; decide)]
  rw [hlines]
  have : ∀ es : List Entry, (∀ e ∈ es, e.Ok ∧ e.score ≠ "#".toList) → noScore (es.map entryLine) = es.map bare := by
    intro es
    induction es with
    | nil => intro _; rfl
    | cons e es ih =>
      intro hes
      obtain ⟨ho, hn⟩ := hes e List.mem_cons_self
      have ih := ih fun x hx => hes x (List.mem_cons_of_mem _ hx)
      have hf := fields_entry ho
      have h0 : (entryWords e).headD [] = e.score := by unfold entryWords; cases e.states <;> rfl
      rw [List.map_cons, List.map_cons, show entryLine e :: es.map entryLine = [entryLine e] ++ es.map entryLine from rfl, noScore_append, ih]
      unfold noScore
      rw [List.filter_cons_of_pos (by rw [hf, h0, decide_eq_true_iff]; exact hn), List.filter_nil, List.map_cons, List.map_nil, hf]
      show [_] ++ _ = _ :: _
      congr 1
      unfold entryWords bare
      rw [bars_eq]
      cases e.states with
      | none => simp
      | some s => simp
  exact this _ h.entries

theorem mergeHeader_eq : ∀ ns : List W, mergeHeader ns = bareHeader ns := by
  intro ns
  induction ns with
  | nil => rfl
  | cons n ns ih =>
    cases ns with
    | nil => rfl
    | cons m ns =>
      show n ++ " - , ".toList ++ mergeHeader (m :: ns) = n ++ " - , ".toList ++ bareHeader (m :: ns)
      rw [ih]

/-- **C271 (partial).** The merged list of two lists has exactly their entries, without scores, each once and in alphabetical order, under the
components of the first. Missing: refusing lists with other components (counterexample). -/
theorem C271_merge_partial (n1 n2 : Nbl) (h1 : n1.Ok) (h2 : n2.Ok) : IsMerge n1 n2 (mergeNbl n1.lines n2.lines) := by
  have hnames : fields ' ' (weightNames n1.lines) = n1.comps.map Prod.fst := by
    unfold weightNames
    rw [show n1.lines.headD [] = headerLine n1.comps from rfl, pairs_header h1.ne h1.comps]
    apply fields_join
    intro w hw
    obtain ⟨p, hp, rfl⟩ := List.mem_map.1 hw
    exact ((h1.comps p hp).1 _ (by simp)).1
  have hsort := List.pairwise_mergeSort leText_trans (fun a b => by rw [Bool.or_eq_true]; exact leText_total a b) (noScore (n1.lines ++ n2.lines))
  obtain ⟨k1, k2, k3⟩ := uniq_spec _ hsort
  refine ⟨uniq ((noScore (n1.lines ++ n2.lines)).mergeSort leText), ?_, ?_, k2, k3⟩
  · unfold mergeNbl
    rw [hnames, mergeHeader_eq]
  · intro x
    rw [k1, (List.mergeSort_perm _ _).mem_iff, noScore_append, noScore_lines h1, noScore_lines h2, List.mem_append, List.mem_map, List.mem_map]
    constructor
    · rintro (⟨e, he, rfl⟩ | ⟨e, he, rfl⟩)
      · exact ⟨e, Or.inl he, rfl⟩
      · exact ⟨e, Or.inr he, rfl⟩
    · rintro ⟨e, he | he, rfl⟩
      · exact Or.inl ⟨e, he, rfl⟩
      · exact Or.inr ⟨e, he, rfl⟩

def exN1 : Nbl := ⟨[(['a'], ['1'])], [⟨['5'], [['2']], none, [['x']]⟩]⟩
def exN2 : Nbl := ⟨[(['b'], ['1'])], []⟩

theorem ex_header (c d : W) (h : Sent [c, d]) (hc : ',' ∉ c ∧ ',' ∉ d) : HeaderOk [(c, d)] := by
  intro p hp
  rw [List.mem_singleton.1 hp]; exact ⟨h, hc⟩

theorem exN1_ok : exN1.Ok := by
  refine ⟨by decide, ex_header _ _ (sent_dec (by decide)) (by decide), ?_⟩
  intro e he
  rw [List.mem_singleton.1 he]
  exact ⟨⟨sent_dec (by decide), sent_dec (by decide), (by intro s h; cases h), sent_dec (by decide)⟩, by decide⟩

theorem exN2_ok : exN2.Ok :=
  ⟨by decide, ex_header _ _ (sent_dec (by decide)) (by decide), by intro e he; cases he⟩

/-- **C271 is false of the code**: lists with other components are merged all the same. -/
theorem C271_counterexample : ¬ C271_full := by
  intro hf
  have h1 := (hf exN1 exN2 exN1_ok exN2_ok).2 (by decide)
  obtain ⟨es, hout, hmem, _⟩ := C271_merge_partial exN1 exN2 exN1_ok exN2_ok
  rw [hout, List.length_cons] at h1
  have he : es = [] := List.eq_nil_of_length_eq_zero (by omega)
  have := (hmem (bare ⟨['5'], [['2']], none, [['x']]⟩)).2 ⟨_, Or.inl (by simp [exN1]), rfl⟩
  rw [he] at this; cases this

end Thot.NbTools

import Verif.NbTools.Rescore
/-!
C269, C270: adding a component to an n-best list and removing one.
-/
namespace Thot.NbTools

open Thot
open Thot.SentHandler (joinWords Word fields_join)
open Thot.Awk (fields cut)

/-! ### Specification -/

/-- A component and its weight. -/
def pairText (p : W × W) : W := p.1 ++ " ".toList ++ p.2

/-- Components separated by commas. -/
def headerTail : List (W × W) → W
  | [] => []
  | [p] => pairText p
  | p :: ps => pairText p ++ " , ".toList ++ headerTail ps

/-- The header of an n-best list: the components and their weights. -/
def headerLine (ps : List (W × W)) : W := "# ".toList ++ headerTail ps

/-- Names and weights are words without commas. -/
def HeaderOk (ps : List (W × W)) : Prop := ∀ p ∈ ps, (Sent [p.1, p.2]) ∧ ',' ∉ p.1 ∧ ',' ∉ p.2

/-- The entry with one more feature, and its new score. -/
def addFeat (num : W → Rat) (fmtF : Rat → W) (ws : List W) (e : Entry) (s : W) : Entry :=
  { e with feats := e.feats ++ [s], score := fmtF (dot (ws.map num) (e.feats.map num) + num s) }

/-- The entry with other features, all of them printed again, and its new score. -/
def setFeats (num : W → Rat) (fmtF : Rat → W) (ws : List W) (e : Entry) (fs : List W) : Entry :=
  { e with feats := fs.map fun f => fmtF (num f), score := fmtF (dot (ws.map num) (fs.map num)) }

/-! ### Lines -/

theorem split_entry {e : Entry} (h : e.Ok) : splitOn fsep (entryLine e) =
    match e.states with
    | none => [e.score, joinWords e.feats, joinWords e.trans]
    | some s => [e.score, joinWords e.feats, joinWords s, joinWords e.trans] := by
  have hs : bars ∉ fields ' ' e.score := by
    rw [fields_word (h.score _ (by simp)).1]; exact sent_bars h.score
  have hf : bars ∉ fields ' ' (joinWords e.feats) := by rw [sent_fields h.feats]; exact sent_bars h.feats
  have ht : bars ∉ fields ' ' (joinWords e.trans) := by rw [sent_fields h.trans]; exact sent_bars h.trans
  have hn : fsep ≠ [] := by decide
  unfold entryLine
  cases hst : e.states with
  | none =>
    simp only [between_eq]
    rw [List.append_assoc (e.score ++ fsep ++ _), List.append_assoc (e.score ++ fsep), splitOn_clean hn _ _ (clean_words hs),
      ← List.append_assoc, splitOn_clean hn _ _ (clean_words hf), splitOn_last _ (no_fsep ht)]
  | some s =>
    have hss : bars ∉ fields ' ' (joinWords s) := by rw [sent_fields (h.states s hst)]; exact sent_bars (h.states s hst)
    simp only [between_eq]
    have e2 : e.score ++ fsep ++ joinWords e.feats ++ fsep ++ joinWords s ++ fsep ++ joinWords e.trans =
        e.score ++ fsep ++ (joinWords e.feats ++ fsep ++ (joinWords s ++ fsep ++ joinWords e.trans)) := by simp
    rw [e2, splitOn_clean hn _ _ (clean_words hs), splitOn_clean hn _ _ (clean_words hf), splitOn_clean hn _ _ (clean_words hss),
      splitOn_last _ (no_fsep ht)]

theorem fields_pair {p : W × W} (h : Sent [p.1, p.2]) : fields ' ' (pairText p) = [p.1, p.2] := by
  show fields ' ' (p.1 ++ [' '] ++ p.2) = _
  rw [List.append_assoc, List.singleton_append, fields_blank, fields_word (h _ (by simp)).1, fields_word (h _ (by simp)).1]; rfl

theorem headerTail_cons (p q : W × W) (ps : List (W × W)) : headerTail (p :: q :: ps) = pairText p ++ ' ' :: ',' :: ' ' :: headerTail (q :: ps) := by
  show pairText p ++ [' ', ',', ' '] ++ headerTail (q :: ps) = _
  simp

theorem headerTail_snoc : ∀ (ps : List (W × W)) (q : W × W), ps ≠ [] → headerTail (ps ++ [q]) = headerTail ps ++ " , ".toList ++ pairText q := by
  intro ps
  induction ps with
  | nil => intro q h; exact absurd rfl h
  | cons p ps ih =>
    intro q _
    cases ps with
    | nil => rfl
    | cons p2 ps =>
      rw [List.cons_append, List.cons_append, headerTail_cons, ← List.cons_append, ih q (by simp), headerTail_cons]
      simp

theorem no_bars_tail : ∀ {ps : List (W × W)}, HeaderOk ps → bars ∉ fields ' ' (headerTail ps) := by
  intro ps
  induction ps with
  | nil => intro _ h; rw [show headerTail [] = [] from rfl, Awk.fields_nil] at h; cases h
  | cons p ps ih =>
    intro h
    have hp := sent_bars (h p List.mem_cons_self).1
    cases ps with
    | nil => show bars ∉ fields ' ' (pairText p); rw [fields_pair (h p List.mem_cons_self).1]; exact hp
    | cons q ps =>
      have e : pairText p ++ ' ' :: ',' :: ' ' :: headerTail (q :: ps) = pairText p ++ ' ' :: ([','] ++ ' ' :: headerTail (q :: ps)) := rfl
      rw [headerTail_cons, e, fields_blank, fields_blank, fields_pair (h p List.mem_cons_self).1,
        fields_word (w := [',']) ⟨by decide, by decide⟩]
      have hi := ih fun x hx => h x (List.mem_cons_of_mem _ hx)
      intro hm
      rcases List.mem_append.1 hm with hm | hm
      · exact hp hm
      · rcases List.mem_append.1 hm with hm | hm
        · exact absurd hm (by decide)
        · exact hi hm

theorem headerLine_eq (ps : List (W × W)) : headerLine ps = ['#'] ++ ' ' :: headerTail ps := rfl

theorem split_header {ps : List (W × W)} (h : HeaderOk ps) : (splitOn fsep (headerLine ps)).headD [] = headerLine ps := by
  rw [splitOn_last]; · rfl
  apply no_fsep
  rw [headerLine_eq, fields_blank, fields_word (w := ['#']) ⟨by decide, by decide⟩]
  intro hm
  rcases List.mem_append.1 hm with hm | hm
  · exact absurd hm (by decide)
  · exact no_bars_tail h hm

theorem no_comma_pair {p : W × W} (h : ',' ∉ p.1 ∧ ',' ∉ p.2) : ',' ∉ pairText p := by
  show ',' ∉ p.1 ++ [' '] ++ p.2
  intro hm
  simp only [List.mem_append, List.mem_cons, List.not_mem_nil, or_false] at hm
  rcases hm with (hm | hm) | hm
  · exact h.1 hm
  · exact absurd hm (by decide)
  · exact h.2 hm

theorem cut_comma : ∀ (a b : W), ',' ∉ a → cut ',' (a ++ ',' :: b) = a :: cut ',' b := by
  intro a
  induction a with
  | nil => intro b _; simp [cut]
  | cons c a ih =>
    intro b h
    rw [List.cons_append, cut, if_neg (by rintro rfl; exact h List.mem_cons_self), ih b fun hm => h (List.mem_cons_of_mem _ hm)]

theorem cut_no_comma : ∀ (a : W), ',' ∉ a → cut ',' a = [a] := by
  intro a
  induction a with
  | nil => intro _; rfl
  | cons c a ih =>
    intro h
    rw [cut, if_neg (by rintro rfl; exact h List.mem_cons_self), ih fun hm => h (List.mem_cons_of_mem _ hm)]

/-- Words may be read apart. -/
def Apart (pre : W) : Prop := ∀ x, fields ' ' (pre ++ x) = fields ' ' pre ++ fields ' ' x

theorem lastWord_append {s : W} {l : List W} {p : W × W} (h : fields ' ' s = l ++ [p.1, p.2]) : lastWord s = p.2 := by
  unfold lastWord; rw [h]; simp

theorem prevWord_append {s : W} {l : List W} {p : W × W} (h : fields ' ' s = l ++ [p.1, p.2]) : prevWord s = p.1 := by
  unfold prevWord; rw [h]
  have : (l ++ [p.1, p.2]).length - 2 = l.length := by simp
  rw [this, List.getD_eq_getElem?_getD, List.getElem?_append_right (Nat.le_refl _)]; simp

theorem weights_tail : ∀ (ps : List (W × W)) (pre : W), ps ≠ [] → HeaderOk ps → ',' ∉ pre → Apart pre →
    headerWeights (pre ++ headerTail ps) = ps.map Prod.snd := by
  intro ps
  induction ps with
  | nil => intro _ h; exact absurd rfl h
  | cons p ps ih =>
    intro pre _ hok hc ha
    have hp := hok p List.mem_cons_self
    have hpc : ',' ∉ pre ++ pairText p := by
      intro hm
      rcases List.mem_append.1 hm with hm | hm
      · exact hc hm
      · exact no_comma_pair hp.2 hm
    cases ps with
    | nil =>
      show headerWeights (pre ++ pairText p) = _
      unfold headerWeights
      rw [cut_no_comma _ hpc, List.map_cons, lastWord_append (p := p) (l := fields ' ' pre) (by rw [ha, fields_pair hp.1])]; rfl
    | cons q ps =>
      have e : pre ++ headerTail (p :: q :: ps) = (pre ++ pairText p ++ [' ']) ++ ',' :: ([' '] ++ headerTail (q :: ps)) := by
        rw [headerTail_cons]; simp
      have := ih [' '] (by simp) (fun x hx => hok x (List.mem_cons_of_mem _ hx)) (by decide)
        (fun x => by rw [List.singleton_append, Awk.fields_sep]; rfl)
      unfold headerWeights at this ⊢
      rw [e, cut_comma _ _ (by
        intro hm
        rcases List.mem_append.1 hm with hm | hm
        · exact hpc hm
        · exact absurd hm (by decide)), List.map_cons, this, List.map_cons, List.map_cons, List.map_cons]
      congr 1
      refine lastWord_append (l := fields ' ' pre) ?_
      rw [show pre ++ pairText p ++ [' '] = (pre ++ pairText p) ++ ' ' :: [] from rfl, fields_blank, ha, fields_pair hp.1, Awk.fields_nil,
        List.append_nil]

theorem clean_comma {f : W} (h : ',' ∉ f) : Clean " , ".toList f := by
  rintro ⟨x, y, e⟩
  have e1 : x ++ [' ', ',', ' '] ++ y = f ++ [' ', ','] := e
  by_cases hy : y = []
  · subst hy
    have := congrArg List.getLast? e1
    rw [List.append_nil, show x ++ [' ', ',', ' '] = (x ++ [' ', ',']) ++ [' '] by simp, List.getLast?_concat,
      show f ++ [' ', ','] = (f ++ [' ']) ++ [','] by simp, List.getLast?_concat] at this
    exact absurd this (by decide)
  · have := congrArg List.dropLast e1
    rw [List.dropLast_append_of_ne_nil hy, show f ++ [' ', ','] = (f ++ [' ']) ++ [','] by simp, List.dropLast_concat] at this
    have hm : ',' ∈ f ++ [' '] := by rw [← this]; simp
    rcases List.mem_append.1 hm with hm | hm
    · exact h hm
    · exact absurd hm (by decide)

theorem pairs_tail : ∀ (ps : List (W × W)) (pre : W), ps ≠ [] → HeaderOk ps → ',' ∉ pre → Apart pre →
    (splitOn " , ".toList (pre ++ headerTail ps)).map (fun p => (prevWord p, lastWord p)) = ps := by
  intro ps
  induction ps with
  | nil => intro _ h; exact absurd rfl h
  | cons p ps ih =>
    intro pre _ hok hc ha
    have hp := hok p List.mem_cons_self
    have hpc : ',' ∉ pre ++ pairText p := by
      intro hm
      rcases List.mem_append.1 hm with hm | hm
      · exact hc hm
      · exact no_comma_pair hp.2 hm
    have hf : fields ' ' (pre ++ pairText p) = fields ' ' pre ++ [p.1, p.2] := by rw [ha, fields_pair hp.1]
    cases ps with
    | nil =>
      show (splitOn " , ".toList (pre ++ pairText p)).map _ = _
      rw [splitOn_last, List.map_cons, lastWord_append hf, prevWord_append hf]; · rfl
      rintro ⟨x, y, e⟩
      apply hpc
      rw [← e]
      show ',' ∈ x ++ [' ', ',', ' '] ++ y
      simp
    | cons q ps =>
      have e : pre ++ headerTail (p :: q :: ps) = (pre ++ pairText p) ++ " , ".toList ++ ([] ++ headerTail (q :: ps)) := by
        rw [headerTail_cons]
        show _ = (pre ++ pairText p) ++ [' ', ',', ' '] ++ _
        simp
      have := ih [] (by simp) (fun x hx => hok x (List.mem_cons_of_mem _ hx)) (by simp) (fun x => by rw [Awk.fields_nil]; rfl)
      rw [e, splitOn_clean (by decide) _ _ (clean_comma hpc), List.map_cons, this, lastWord_append hf, prevWord_append hf]

theorem apart_hash : Apart "# ".toList := by
  intro x
  show fields ' ' (['#'] ++ ' ' :: x) = fields ' ' (['#'] ++ ' ' :: []) ++ _
  rw [fields_blank, fields_blank, Awk.fields_nil, List.append_nil]

theorem weights_header {ps : List (W × W)} (hne : ps ≠ []) (h : HeaderOk ps) : headerWeights (headerLine ps) = ps.map Prod.snd :=
  weights_tail ps _ hne h (by decide) apart_hash

theorem pairs_header {ps : List (W × W)} (hne : ps ≠ []) (h : HeaderOk ps) : headerPairs (headerLine ps) = ps := by
  unfold headerPairs
  rw [split_header h]
  exact pairs_tail ps _ hne h (by decide) apart_hash

/-! ### Adding -/

theorem join_snoc : ∀ (fs : List W) (s : W), fs ≠ [] → joinWords (fs ++ [s]) = joinWords fs ++ ' ' :: s := by
  intro fs s h
  rw [PhrTools.join_append fs [s] h (by simp)]; rfl

theorem dotLoop_spec (num : W → Rat) : ∀ (fs ws pre : List W) (acc : Rat), fs.length = ws.length →
    dotLoop num (pre ++ ws) fs pre.length acc = acc + dot (ws.map num) (fs.map num) := by
  intro fs
  induction fs with
  | nil =>
    intro ws pre acc h
    rw [List.eq_nil_of_length_eq_zero h.symm]
    show acc = acc + 0; rw [Rat.add_zero]
  | cons f fs ih =>
    intro ws pre acc h
    cases ws with
    | nil => cases h
    | cons w ws =>
      show dotLoop num (pre ++ w :: ws) fs (pre.length + 1) (acc + num ((pre ++ w :: ws).getD pre.length []) * num f) = _
      have h0 : (pre ++ w :: ws).getD pre.length [] = w := by
        rw [List.getD_eq_getElem?_getD, List.getElem?_append_right (Nat.le_refl _)]; simp
      have e : pre ++ w :: ws = (pre ++ [w]) ++ ws := by simp
      rw [h0, e, show pre.length + 1 = (pre ++ [w]).length by simp, ih ws (pre ++ [w]) _ (by simpa using h)]
      show _ = acc + (num w * num f + dot (ws.map num) (fs.map num))
      grind

theorem getD_one {e : Entry} (h : e.Ok) : (splitOn fsep (entryLine e)).getD 1 [] = joinWords e.feats := by
  rw [split_entry h]; cases e.states <;> rfl

theorem augLine_spec (num : W → Rat) (fmtF : Rat → W) {ws : List W} {e : Entry} (h : e.Ok) (hl : e.feats.length = ws.length)
    (hne : e.feats ≠ []) (s : W) : augLine num fmtF ws (entryLine e) s = [entryLine (addFeat num fmtF ws e s)] := by
  unfold augLine
  rw [getD_one h, sent_fields h.feats, split_entry h]
  have hd := dotLoop_spec num e.feats ws [] 0 hl
  rw [List.nil_append, Rat.zero_add] at hd
  simp only [List.length_nil] at hd
  rw [hd]
  unfold entryLine addFeat
  cases e.states with
  | none => simp only [between_eq]; rw [join_snoc _ _ hne]; simp
  | some st => simp only [between_eq]; rw [join_snoc _ _ hne]; simp

theorem augLoop_spec (num : W → Rat) (fmtF : Rat → W) {ws : List W} : ∀ (es : List Entry) (ss : List W),
    (∀ e ∈ es, e.Ok ∧ e.feats.length = ws.length ∧ e.feats ≠ []) → ss.length = es.length →
    augLoop num fmtF ws (es.map entryLine) ss = (List.zipWith (addFeat num fmtF ws) es ss).map entryLine := by
  intro es
  induction es with
  | nil => intro ss _ _; rfl
  | cons e es ih =>
    intro ss h hl
    cases ss with
    | nil => cases hl
    | cons s ss =>
      obtain ⟨h1, h2, h3⟩ := h e List.mem_cons_self
      show augLine num fmtF ws (entryLine e) s ++ augLoop num fmtF ws (es.map entryLine) ss = _
      rw [augLine_spec num fmtF h1 h2 h3, ih ss (fun x hx => h x (List.mem_cons_of_mem _ hx)) (by simpa using hl)]
      rfl

theorem dot_snoc : ∀ (x y : List Rat) (a b : Rat), x.length = y.length → dot (x ++ [a]) (y ++ [b]) = dot x y + a * b := by
  intro x
  induction x with
  | nil =>
    intro y a b h
    rw [List.eq_nil_of_length_eq_zero h.symm]
    show a * b + 0 = 0 + a * b
    grind
  | cons c x ih =>
    intro y a b h
    cases y with
    | nil => cases h
    | cons d y =>
      show c * d + dot (x ++ [a]) (y ++ [b]) = c * d + dot x y + a * b
      rw [ih y a b (by simpa using h)]
      grind

/-- Adding a component. The new list has the component in its header, with weight one, and in every entry; the score of every entry is the sum of
its features with the weights of the new header. Everything else is as it was. -/
theorem C269_augment (num : W → Rat) (hnum : num "1".toList = 1) (fmtF : Rat → W) (ps : List (W × W)) (hne : ps ≠ []) (hps : HeaderOk ps)
    (wname : W) (es : List Entry) (hes : ∀ e ∈ es, e.Ok ∧ e.feats.length = ps.length) (scrs : List W)
    (hs : ∀ s ∈ scrs, Sent [s]) (hl : scrs.length = es.length) :
    ∃ es' : List Entry, augment num fmtF wname scrs (headerLine ps :: es.map entryLine) = headerLine (ps ++ [(wname, "1".toList)]) :: es'.map entryLine ∧
      es'.length = es.length ∧
      ∀ (i : Nat) e s, es[i]? = some e → scrs[i]? = some s →
        ∃ e', es'[i]? = some e' ∧ e'.feats = e.feats ++ [s] ∧ e'.states = e.states ∧ e'.trans = e.trans ∧
          e'.score = fmtF (scoreOf num ((ps ++ [(wname, "1".toList)]).map Prod.snd) e') := by
  refine ⟨List.zipWith (addFeat num fmtF (ps.map Prod.snd)) es scrs, ?_, ?_, ?_⟩
  · have hmap : scrs.map (fun s => (splitOn fsep s).headD []) = scrs := by
      conv => rhs; rw [← List.map_id scrs]
      apply List.map_congr_left
      intro s hs'
      rw [splitOn_last]; · rfl
      apply no_fsep
      rw [fields_word (hs s hs' s (by simp)).1]
      exact sent_bars (hs s hs')
    have : augment num fmtF wname scrs (headerLine ps :: es.map entryLine) =
        ((splitOn fsep (headerLine ps)).headD [] ++ " , ".toList ++ wname ++ " 1".toList) ::
          augLoop num fmtF (headerWeights ((splitOn fsep (headerLine ps)).headD [])) (es.map entryLine)
            (scrs.map fun s => (splitOn fsep s).headD []) := rfl
    rw [this, split_header hps, weights_header hne hps, hmap, augLoop_spec num fmtF es scrs
      (fun e he => ⟨(hes e he).1, by rw [List.length_map]; exact (hes e he).2, fun h0 => by
        have := (hes e he).2
        rw [h0] at this
        exact hne (List.eq_nil_of_length_eq_zero this.symm)⟩) hl]
    congr 1
    unfold headerLine
    rw [headerTail_snoc ps _ hne]
    show _ = "# ".toList ++ (headerTail ps ++ " , ".toList ++ (wname ++ [' '] ++ ['1']))
    have e1 : " 1".toList = [' ', '1'] := rfl
    rw [e1]; simp
  · rw [List.length_zipWith]; omega
  · intro i e s he hsi
    refine ⟨addFeat num fmtF (ps.map Prod.snd) e s, ?_, rfl, rfl, rfl, ?_⟩
    · rw [List.getElem?_zipWith, he, hsi]
    · unfold scoreOf addFeat
      simp only [List.map_append, List.map_cons, List.map_nil]
      rw [dot_snoc _ _ _ _ (by simp [(hes e (List.mem_of_getElem? he)).2]), hnum, Rat.one_mul]

/-! ### Removing -/

theorem removedIdx_not (name : W) : ∀ (ps : List (W × W)) (k : Nat) (r : Option Nat), (∀ p ∈ ps, p.1 ≠ name) → removedIdx name ps k r = r := by
  intro ps
  induction ps with
  | nil => intro k r _; rfl
  | cons p ps ih =>
    intro k r h
    show removedIdx name ps (k + 1) (if p.1 = name then some k else r) = r
    rw [if_neg (h p List.mem_cons_self), ih _ _ fun x hx => h x (List.mem_cons_of_mem _ hx)]

theorem removedIdx_last (name : W) (x : W × W) (hx : x.1 = name) (b : List (W × W)) (hb : ∀ p ∈ b, p.1 ≠ name) :
    ∀ (a : List (W × W)) (k : Nat) (r : Option Nat), removedIdx name (a ++ x :: b) k r = some (k + a.length) := by
  intro a
  induction a with
  | nil =>
    intro k r
    show removedIdx name b (k + 1) (if x.1 = name then some k else r) = _
    rw [if_pos hx, removedIdx_not name b _ _ hb]; rfl
  | cons p a ih =>
    intro k r
    show removedIdx name (a ++ x :: b) (k + 1) _ = _
    rw [ih]; simp only [List.length_cons]; congr 1; omega

theorem isLast_iff (rm : Option Nat) (n i : Nat) : isLast rm n i = true ↔ i + 1 = n ∨ (i + 2 = n ∧ rm = some (n - 1)) := by
  unfold isLast; rw [decide_eq_true_iff]

theorem pair_cons (p : W × W) (r : W) : ' ' :: p.1 ++ ' ' :: p.2 ++ r = ' ' :: (pairText p ++ r) := by
  show _ = ' ' :: (p.1 ++ [' '] ++ p.2 ++ r); simp

theorem headLoop_plain (rm : Option Nat) (n : Nat) : ∀ (ps : List (W × W)) (i : Nat), ps ≠ [] → i + ps.length = n →
    (∀ k, rm = some k → k < i) → headLoop rm n ps i = ' ' :: headerTail ps := by
  intro ps
  induction ps with
  | nil => intro i h; exact absurd rfl h
  | cons p ps ih =>
    intro i _ hl hr
    have h0 : ¬ rm = some i := fun h => absurd (hr i h) (Nat.lt_irrefl _)
    show (if rm = some i then _ else ' ' :: p.1 ++ ' ' :: p.2 ++ (if isLast rm n i = true then [] else " ,".toList) ++ headLoop rm n ps (i + 1)) = _
    rw [if_neg h0]
    cases ps with
    | nil =>
      rw [if_pos ((isLast_iff _ _ _).2 (Or.inl (by simpa using hl))), List.append_nil]
      show ' ' :: p.1 ++ ' ' :: p.2 ++ [] = _
      rw [pair_cons, List.append_nil]; rfl
    | cons q ps =>
      simp only [List.length_cons] at hl
      rw [if_neg, ih (i + 1) (by simp) (by simp only [List.length_cons]; omega) (fun k hk => Nat.lt_succ_of_lt (hr k hk)), headerTail_cons]
      · rw [pair_cons]
        show ' ' :: (pairText p ++ [' ', ',']) ++ _ = _
        simp
      · rw [isLast_iff]
        rintro (h | ⟨h, h2⟩)
        · omega
        · have := hr _ h2; omega

theorem headLoop_remove (rm : Option Nat) (n : Nat) (x : W × W) (b : List (W × W)) : ∀ (a : List (W × W)) (i : Nat), a ++ b ≠ [] →
    i + a.length + 1 + b.length = n → rm = some (i + a.length) → headLoop rm n (a ++ x :: b) i = ' ' :: headerTail (a ++ b) := by
  intro a
  induction a with
  | nil =>
    intro i hne hl hr
    show (if rm = some i then headLoop rm n b (i + 1) else _) = _
    rw [if_pos (show rm = some i from hr)]
    exact headLoop_plain rm n b (i + 1) hne (by simpa using hl) (fun k hk => by rw [hr] at hk; cases hk; simp)
  | cons p a ih =>
    intro i hne hl hr
    simp only [List.length_cons] at hl hr
    have h0 : ¬ rm = some i := by rw [hr]; intro h; injection h with h; omega
    show (if rm = some i then _ else ' ' :: p.1 ++ ' ' :: p.2 ++ (if isLast rm n i = true then [] else " ,".toList) ++
      headLoop rm n (a ++ x :: b) (i + 1)) = _
    rw [if_neg h0]
    cases hab : a ++ b with
    | nil =>
      obtain ⟨rfl, rfl⟩ := List.append_eq_nil_iff.1 hab
      simp only [List.length_nil] at hl hr
      rw [if_pos ((isLast_iff _ _ _).2 (Or.inr ⟨by omega, by rw [hr]; congr 1; omega⟩)), List.append_nil]
      show ' ' :: p.1 ++ ' ' :: p.2 ++ (if rm = some (i + 1) then [] else _) = _
      rw [if_pos (by rw [hr]), pair_cons, List.append_nil]; rfl
    | cons q r =>
      rw [if_neg, ih (i + 1) (by rw [hab]; simp) (by omega) (by rw [hr]; congr 1; omega), hab, show p :: a ++ b = p :: q :: r by rw [List.cons_append, hab], headerTail_cons p q r]
      · rw [pair_cons]
        show ' ' :: (pairText p ++ [' ', ',']) ++ _ = _
        simp
      · rw [isLast_iff, hr]
        rintro (h | ⟨h, h2⟩)
        · omega
        · injection h2 with h2
          have : a.length + b.length = 0 := by omega
          have h3 := congrArg List.length hab
          rw [List.length_append, List.length_cons] at h3
          omega

theorem remLoop_plain (num : W → Rat) (rm : Option Nat) : ∀ (fs ws pre post : List W) (acc : Rat), fs.length = ws.length →
    (∀ k, rm = some k → k < pre.length ∨ pre.length + ws.length ≤ k) →
    remLoop num rm (pre ++ ws ++ post) fs pre.length acc = acc + dot (ws.map num) (fs.map num) := by
  intro fs
  induction fs with
  | nil =>
    intro ws pre post acc h _
    rw [List.eq_nil_of_length_eq_zero h.symm]
    show acc = acc + 0; rw [Rat.add_zero]
  | cons f fs ih =>
    intro ws pre post acc h hr
    cases ws with
    | nil => cases h
    | cons w ws =>
      show remLoop num rm (pre ++ w :: ws ++ post) fs (pre.length + 1)
        (if rm = some pre.length then acc else acc + num ((pre ++ w :: ws ++ post).getD pre.length []) * num f) = _
      have h0 : (pre ++ w :: ws ++ post).getD pre.length [] = w := by
        rw [List.getD_eq_getElem?_getD, List.append_assoc, List.getElem?_append_right (Nat.le_refl _)]; simp
      have e : pre ++ w :: ws ++ post = (pre ++ [w]) ++ ws ++ post := by simp
      have hn : ¬ rm = some pre.length := fun hk => by
        have := hr _ hk
        simp only [List.length_cons] at this
        omega
      rw [if_neg hn, h0, e, show pre.length + 1 = (pre ++ [w]).length by simp, ih ws (pre ++ [w]) post _ (by simpa using h) (by
        intro k hk
        have := hr k hk
        simp only [List.length_cons, List.length_append, List.length_nil] at this ⊢
        omega)]
      show _ = acc + (num w * num f + dot (ws.map num) (fs.map num))
      grind

theorem remLoop_append (num : W → Rat) (rm : Option Nat) (ws : List W) : ∀ (f g : List W) (k : Nat) (acc : Rat),
    remLoop num rm ws (f ++ g) k acc = remLoop num rm ws g (k + f.length) (remLoop num rm ws f k acc) := by
  intro f
  induction f with
  | nil => intro g k acc; rfl
  | cons a f ih =>
    intro g k acc
    show remLoop num rm ws (f ++ g) (k + 1) _ = remLoop num rm ws g _ (remLoop num rm ws f (k + 1) _)
    rw [ih]; simp only [List.length_cons]; congr 1; omega

/-- The features printed. -/
def printed (num : W → Rat) (fmtF : Rat → W) (fs : List W) : W := fs.flatMap fun f => ' ' :: fmtF (num f)

theorem printed_join (num : W → Rat) (fmtF : Rat → W) : ∀ (fs : List W), fs ≠ [] →
    printed num fmtF fs = ' ' :: joinWords (fs.map fun f => fmtF (num f)) := by
  intro fs
  induction fs with
  | nil => intro h; exact absurd rfl h
  | cons f fs ih =>
    intro _
    show ' ' :: fmtF (num f) ++ printed num fmtF fs = _
    cases fs with
    | nil => show ' ' :: fmtF (num f) ++ [] = _; rw [List.append_nil]; rfl
    | cons g fs => rw [ih (by simp)]; rfl

theorem featLoop_plain (num : W → Rat) (fmtF : Rat → W) (rm : Option Nat) : ∀ (fs : List W) (k : Nat),
    (∀ j, rm = some j → j < k ∨ k + fs.length ≤ j) → featLoop num fmtF rm fs k = printed num fmtF fs := by
  intro fs
  induction fs with
  | nil => intro k _; rfl
  | cons f fs ih =>
    intro k hr
    show (if rm = some k then [] else _) ++ featLoop num fmtF rm fs (k + 1) = _
    rw [if_neg fun h => by
      have := hr k h
      simp only [List.length_cons] at this
      omega, ih (k + 1) (by
        intro j hj
        have := hr j hj
        simp only [List.length_cons] at this
        omega)]
    rfl

theorem featLoop_append (num : W → Rat) (fmtF : Rat → W) (rm : Option Nat) : ∀ (f g : List W) (k : Nat),
    featLoop num fmtF rm (f ++ g) k = featLoop num fmtF rm f k ++ featLoop num fmtF rm g (k + f.length) := by
  intro f
  induction f with
  | nil => intro g k; rfl
  | cons a f ih =>
    intro g k
    show _ ++ featLoop num fmtF rm (f ++ g) (k + 1) = (_ ++ featLoop num fmtF rm f (k + 1)) ++ _
    rw [ih, List.append_assoc, List.length_cons, show k + 1 + f.length = k + (f.length + 1) by omega]

theorem remLine_of (num : W → Rat) (fmtF : Rat → W) {rm : Option Nat} {ws ws' fs' : List W} {e : Entry} (h : e.Ok) (hne : fs' ≠ [])
    (h1 : remLoop num rm ws e.feats 0 0 = dot (ws'.map num) (fs'.map num)) (h2 : featLoop num fmtF rm e.feats 0 = printed num fmtF fs') :
    remLine num fmtF rm ws (entryLine e) = entryLine (setFeats num fmtF ws' e fs') := by
  unfold remLine
  rw [getD_one h, sent_fields h.feats, h1, h2, printed_join _ _ _ hne, split_entry h]
  have eb : " |||".toList = [' ', '|', '|', '|'] := rfl
  unfold entryLine setFeats
  rw [eb]
  cases e.states with
  | none => simp [between_eq, fsep]
  | some s => simp [between_eq, fsep]

/-- The list without the element at a position. -/
def without {A : Type} (l : List A) (k : Nat) : List A := l.take k ++ l.drop (k + 1)

theorem without_app {A : Type} (a b : List A) (x : A) : without (a ++ x :: b) a.length = a ++ b := by
  unfold without
  rw [List.take_left', List.drop_append]
  · simp
  · rfl

theorem dot_append : ∀ (x y : List Rat) (u v : List Rat), x.length = y.length → dot (x ++ u) (y ++ v) = dot x y + dot u v := by
  intro x
  induction x with
  | nil => intro y u v h; rw [List.eq_nil_of_length_eq_zero h.symm]; show _ = 0 + _; rw [Rat.zero_add]; rfl
  | cons c x ih =>
    intro y u v h
    cases y with
    | nil => cases h
    | cons d y =>
      show c * d + dot (x ++ u) (y ++ v) = c * d + dot x y + dot u v
      rw [ih y u v (by simpa using h)]; grind

theorem remLine_remove (num : W → Rat) (fmtF : Rat → W) (a b : List W) (x : W) {e : Entry} (h : e.Ok) (hl : e.feats.length = a.length + 1 + b.length)
    (hne : a ++ b ≠ []) : remLine num fmtF (some a.length) (a ++ x :: b) (entryLine e) =
      entryLine (setFeats num fmtF (a ++ b) e (without e.feats a.length)) := by
  obtain ⟨fa, f, fb, hf, hla, hlb⟩ : ∃ fa f fb, e.feats = fa ++ f :: fb ∧ fa.length = a.length ∧ fb.length = b.length := by
    have hlt : a.length < e.feats.length := by omega
    refine ⟨e.feats.take a.length, e.feats[a.length], e.feats.drop (a.length + 1), ?_, by rw [List.length_take]; omega,
      by rw [List.length_drop]; omega⟩
    rw [List.getElem_cons_drop hlt, List.take_append_drop]
  have hw : without e.feats a.length = fa ++ fb := by rw [hf, ← hla, without_app]
  rw [hw]
  apply remLine_of num fmtF h
  · intro h0
    apply hne
    obtain ⟨h1, h2⟩ := List.append_eq_nil_iff.1 h0
    rw [h1] at hla; rw [h2] at hlb
    rw [List.eq_nil_of_length_eq_zero hla.symm, List.eq_nil_of_length_eq_zero hlb.symm]; rfl
  · rw [hf, remLoop_append]
    have e1 := remLoop_plain num (some a.length) fa a [] (x :: b) 0 hla (by intro k hk; cases hk; right; simp)
    rw [List.nil_append] at e1
    simp only [List.length_nil] at e1
    rw [e1, Rat.zero_add, hla]
    show remLoop num (some a.length) (a ++ x :: b) fb (0 + a.length + 1) (if some a.length = some (0 + a.length) then _ else _) = _
    rw [if_pos (by rw [Nat.zero_add])]
    have e2 := remLoop_plain num (some a.length) fb b (a ++ [x]) [] (dot (a.map num) (fa.map num)) hlb
      (by intro k hk; cases hk; left; simp)
    rw [List.append_nil, List.append_assoc, List.singleton_append, List.length_append, List.length_singleton] at e2
    rw [Nat.zero_add, e2, List.map_append, List.map_append, dot_append _ _ _ _ (by simp [hla])]
  · rw [hf, featLoop_append, featLoop_plain _ _ _ fa 0 (by intro j hj; cases hj; right; omega), hla]
    show _ ++ ((if some a.length = some (0 + a.length) then [] else _) ++ featLoop num fmtF _ fb (0 + a.length + 1)) = _
    rw [if_pos (by rw [Nat.zero_add]), featLoop_plain _ _ _ fb _ (by intro j hj; cases hj; left; omega)]
    unfold printed
    rw [List.flatMap_append]; rfl

theorem remLine_none (num : W → Rat) (fmtF : Rat → W) (ws : List W) {e : Entry} (h : e.Ok) (hl : e.feats.length = ws.length)
    (hne : ws ≠ []) : remLine num fmtF none ws (entryLine e) = entryLine (setFeats num fmtF ws e e.feats) := by
  apply remLine_of num fmtF h
  · intro h0; rw [h0] at hl; exact hne (List.eq_nil_of_length_eq_zero hl.symm)
  · have := remLoop_plain num none e.feats ws [] [] 0 hl (by intro k hk; cases hk)
    rw [List.nil_append, List.append_nil, Rat.zero_add] at this
    exact this
  · exact featLoop_plain _ _ _ _ _ (by intro j hj; cases hj)

theorem remComp_remove (num : W → Rat) (fmtF : Rat → W) (c : W) (a b : List (W × W)) (x : W) (hne : a ++ b ≠ [])
    (hok : HeaderOk (a ++ (c ++ ['w'], x) :: b)) (hb : ∀ p ∈ b, p.1 ≠ c ++ ['w']) (es : List Entry)
    (hes : ∀ e ∈ es, e.Ok ∧ e.feats.length = (a ++ (c ++ ['w'], x) :: b).length) :
    remComp num fmtF c (headerLine (a ++ (c ++ ['w'], x) :: b) :: es.map entryLine) =
      headerLine (a ++ b) :: es.map fun e => entryLine (setFeats num fmtF ((a ++ b).map Prod.snd) e (without e.feats a.length)) := by
  show ('#' :: headLoop (removedIdx (c ++ ['w']) (headerPairs (headerLine (a ++ (c ++ ['w'], x) :: b))) 0 none) _
    (headerPairs (headerLine (a ++ (c ++ ['w'], x) :: b))) 0) :: (es.map entryLine).map (remLine num fmtF
      (removedIdx (c ++ ['w']) (headerPairs (headerLine (a ++ (c ++ ['w'], x) :: b))) 0 none) _) = _
  rw [pairs_header (by simp) hok, removedIdx_last (c ++ ['w']) (c ++ ['w'], x) rfl b hb, Nat.zero_add,
    headLoop_remove _ _ _ b a 0 hne (by simp; omega) (by simp), List.map_map]
  congr 1
  apply List.map_congr_left
  intro e he
  have := remLine_remove num fmtF (a.map Prod.snd) (b.map Prod.snd) x (hes e he).1 (by
    rw [(hes e he).2]; simp; omega) (by
      intro h0
      apply hne
      obtain ⟨h1, h2⟩ := List.append_eq_nil_iff.1 h0
      rw [List.map_eq_nil_iff.1 h1, List.map_eq_nil_iff.1 h2]; rfl)
  rw [List.length_map] at this
  rw [Function.comp_apply, List.map_append, List.map_append, ← this]; rfl

theorem zip_map {A B C : Type} (f : A → B → C) (g : C → W) (h : A → W) : ∀ (l : List A) (m : List B), m.length = l.length →
    (∀ a ∈ l, ∀ b ∈ m, g (f a b) = h a) → (List.zipWith f l m).map g = l.map h := by
  intro l
  induction l with
  | nil => intro m _ _; rfl
  | cons a l ih =>
    intro m hm hg
    cases m with
    | nil => cases hm
    | cons b m =>
      rw [List.zipWith_cons_cons, List.map_cons, List.map_cons, hg a List.mem_cons_self b List.mem_cons_self,
        ih m (by simpa using hm) fun x hx y hy => hg x (List.mem_cons_of_mem _ hx) y (List.mem_cons_of_mem _ hy)]

/-- Removing a component. (1) The last component with the name is taken out of the header and of every entry, whose score is the weighted sum of
the other features. (2) Without such a component, only the numbers are printed again. (3) Removing the component added last gives the list
before it was added, with all numbers printed again. -/
theorem C270_remove (num : W → Rat) (fmtF : Rat → W) (hfmt : ∀ q, Sent [fmtF q]) (c : W) :
    (∀ (a b : List (W × W)) (x : W) (es : List Entry), a ++ b ≠ [] → HeaderOk (a ++ (c ++ "w".toList, x) :: b) →
      (∀ p ∈ b, p.1 ≠ c ++ "w".toList) → (∀ e ∈ es, e.Ok ∧ e.feats.length = (a ++ (c ++ "w".toList, x) :: b).length) →
      remComp num fmtF c (headerLine (a ++ (c ++ "w".toList, x) :: b) :: es.map entryLine) =
        headerLine (a ++ b) :: es.map fun e => entryLine (setFeats num fmtF ((a ++ b).map Prod.snd) e (without e.feats a.length))) ∧
    (∀ (ps : List (W × W)) (es : List Entry), ps ≠ [] → HeaderOk ps → (∀ p ∈ ps, p.1 ≠ c ++ "w".toList) →
      (∀ e ∈ es, e.Ok ∧ e.feats.length = ps.length) →
      remComp num fmtF c (headerLine ps :: es.map entryLine) =
        headerLine ps :: es.map fun e => entryLine (setFeats num fmtF (ps.map Prod.snd) e e.feats)) ∧
    (∀ (ps : List (W × W)) (es : List Entry) (scrs : List W), ps ≠ [] → HeaderOk (ps ++ [(c ++ "w".toList, "1".toList)]) →
      (∀ e ∈ es, e.Ok ∧ e.feats.length = ps.length) → (∀ s ∈ scrs, Sent [s]) → scrs.length = es.length →
      remComp num fmtF c (augment num fmtF (c ++ "w".toList) scrs (headerLine ps :: es.map entryLine)) =
        headerLine ps :: es.map fun e => entryLine (setFeats num fmtF (ps.map Prod.snd) e e.feats)) := by
  refine ⟨fun a b x es h1 h2 h3 h4 => remComp_remove num fmtF c a b x h1 h2 h3 es h4, ?_, ?_⟩
  · intro ps es hne hok hno hes
    show ('#' :: headLoop (removedIdx (c ++ ['w']) (headerPairs (headerLine ps)) 0 none) _ (headerPairs (headerLine ps)) 0) ::
      (es.map entryLine).map (remLine num fmtF (removedIdx (c ++ ['w']) (headerPairs (headerLine ps)) 0 none) _) = _
    rw [pairs_header hne hok, removedIdx_not (c ++ ['w']) ps _ _ hno, headLoop_plain _ _ ps 0 hne (by simp) (by intro k hk; cases hk), List.map_map]
    congr 1
    apply List.map_congr_left
    intro e he
    exact remLine_none num fmtF _ (hes e he).1 (by rw [List.length_map]; exact (hes e he).2) (by simpa using hne)
  · intro ps es scrs hne hok hes hs hl
    have hok1 : HeaderOk ps := fun p hp => hok p (List.mem_append_left _ hp)
    have haug : augment num fmtF (c ++ "w".toList) scrs (headerLine ps :: es.map entryLine) =
        headerLine (ps ++ [(c ++ "w".toList, "1".toList)]) :: (List.zipWith (addFeat num fmtF (ps.map Prod.snd)) es scrs).map entryLine := by
      have hmap : scrs.map (fun s => (splitOn fsep s).headD []) = scrs := by
        conv => rhs; rw [← List.map_id scrs]
        apply List.map_congr_left
        intro s hs'
        rw [splitOn_last]; · rfl
        apply no_fsep
        rw [fields_word (hs s hs' s (by simp)).1]
        exact sent_bars (hs s hs')
      show ((splitOn fsep (headerLine ps)).headD [] ++ " , ".toList ++ (c ++ "w".toList) ++ " 1".toList) ::
          augLoop num fmtF (headerWeights ((splitOn fsep (headerLine ps)).headD [])) (es.map entryLine)
            (scrs.map fun s => (splitOn fsep s).headD []) = _
      rw [split_header hok1, weights_header hne hok1, hmap, augLoop_spec num fmtF es scrs
        (fun e he => ⟨(hes e he).1, by rw [List.length_map]; exact (hes e he).2, fun h0 => by
          have := (hes e he).2
          rw [h0] at this
          exact hne (List.eq_nil_of_length_eq_zero this.symm)⟩) hl]
      congr 1
      unfold headerLine
      rw [headerTail_snoc ps _ hne]
      show _ = "# ".toList ++ (headerTail ps ++ " , ".toList ++ ((c ++ "w".toList) ++ [' '] ++ ['1']))
      have e1 : " 1".toList = [' ', '1'] := rfl
      rw [e1]; simp
    rw [haug]
    have hnew : ∀ e' ∈ List.zipWith (addFeat num fmtF (ps.map Prod.snd)) es scrs,
        e'.Ok ∧ e'.feats.length = (ps ++ (c ++ "w".toList, "1".toList) :: []).length := by
      intro e' he'
      obtain ⟨i, hi⟩ := List.mem_iff_getElem?.1 he'
      rw [List.getElem?_zipWith] at hi
      cases h1 : es[i]? with
      | none => rw [h1] at hi; cases hi
      | some e =>
        cases h2 : scrs[i]? with
        | none => rw [h1, h2] at hi; cases hi
        | some s =>
          rw [h1, h2] at hi
          cases hi
          obtain ⟨ho, hle⟩ := hes e (List.mem_of_getElem? h1)
          refine ⟨⟨hfmt _, ?_, ho.states, ho.trans⟩, ?_⟩
          · intro w hw
            rcases List.mem_append.1 hw with hw | hw
            · exact ho.feats w hw
            · exact hs s (List.mem_of_getElem? h2) w hw
          · show (e.feats ++ [s]).length = _
            simp [hle]
    have hR := remComp_remove num fmtF c ps [] "1".toList (by simpa using hne) hok (by simp) _ hnew
    rw [List.append_nil] at hR
    refine hR.trans ?_
    congr 1
    apply zip_map _ _ _ es scrs hl
    intro e he s hs'
    congr 1
    unfold setFeats addFeat
    have : without (e.feats ++ [s]) ps.length = e.feats := by
      rw [← (hes e he).2, show e.feats ++ [s] = e.feats ++ s :: [] from rfl, without_app, List.append_nil]
    simp only [this]

/-- The hypotheses are met: a header with two components, and an entry. -/
example : HeaderOk [("tmw".toList, "0.5".toList), ("lmw".toList, "1".toList), ("rnnw".toList, "1".toList)] := by
  intro p hp
  simp only [List.mem_cons, List.not_mem_nil, or_false] at hp
  rcases hp with rfl | rfl | rfl <;> exact ⟨sent_dec (by decide), by decide, by decide⟩

example : augment (fun w => w.length) (fun q => if q = 4 then ['4'] else ['?']) "rnnw".toList ["5".toList]
    ["# tmw 1 , lmw 2".toList, "7 ||| 3 4 ||| 0->1 ||| the house".toList] =
    ["# tmw 1 , lmw 2 , rnnw 1".toList, "? ||| 3 4 5 ||| 0->1 ||| the house".toList] := by decide +kernel

end Thot.NbTools

import Verif.Ecm.Model

namespace Thot.Ecm

open Thot.EditDist

/-! ## C148: the weights of the error correction model -/

/-- A vector of weights that defines an error model: vocabulary size, probability of a hit and factors
of insertions, substitutions and deletions, all positive, with a hit probability below one. -/
def ValidWeights (w : List ℝ) : Prop :=
  ∃ v hp i s d, w = [v, hp, i, s, d] ∧ 0 < v ∧ 0 < hp ∧ hp < 1 ∧ 0 < i ∧ 0 < s ∧ 0 < d

/-- `w` is the last valid vector of the history, or the default vector if there is none. -/
inductive Current : List (List ℝ) → List ℝ → Prop
  | default : Current [] [128, 0.8, 1, 1, 1]
  | valid {h w} : ValidWeights w → Current (h ++ [w]) w
  | invalid {h u w} : Current h w → ¬ ValidWeights u → Current (h ++ [u]) w

/-- The state after a history of calls of `setWeights`. -/
noncomputable def run (h : List (List ℝ)) : Pfsm := h.foldl Pfsm.setWeights Pfsm.init

theorem weightsLeZero_iff (w : List ℝ) : weightsLeZero w = false ↔ ∀ x ∈ w, 0 < x := by
  induction w with
  | nil => simp [weightsLeZero]
  | cons a l ih =>
    rw [weightsLeZero]
    split
    · rename_i h
      simp only [Bool.true_eq_false, List.mem_cons, forall_eq_or_imp, false_iff, not_and]
      intro h2; exact absurd h2 (not_lt.2 h)
    · rename_i h
      simp only [List.mem_cons, forall_eq_or_imp, ih]
      exact ⟨fun h2 => ⟨not_le.1 h, h2⟩, fun h2 => h2.2⟩

theorem setWeights_valid (e : Pfsm) (v hp i s d : ℝ) (h : ValidWeights [v, hp, i, s, d]) :
    e.setWeights [v, hp, i, s, d] = ⟨[v, hp, i, s, d], setErrorModel v hp i s d⟩ := by
  obtain ⟨v', hp', i', s', d', he, h1, h2, h3, h4, h5, h6⟩ := h
  simp only [List.cons.injEq, and_true] at he
  obtain ⟨rfl, rfl, rfl, rfl, rfl⟩ := he
  rw [Pfsm.setWeights, if_pos]
  refine ⟨not_le.2 h3, (weightsLeZero_iff _).2 ?_⟩
  simp only [List.mem_cons, List.not_mem_nil, or_false]
  rintro x (rfl | rfl | rfl | rfl | rfl) <;> assumption

theorem setWeights_invalid (e : Pfsm) (w : List ℝ) (h : ¬ ValidWeights w) : e.setWeights w = e := by
  unfold Pfsm.setWeights
  split
  · rename_i v hp i s d
    rw [if_neg]
    rintro ⟨h1, h2⟩
    rw [weightsLeZero_iff] at h2
    exact h ⟨v, hp, i, s, d, rfl, h2 v (by simp), h2 hp (by simp), not_le.1 h1, h2 i (by simp), h2 s (by simp),
      h2 d (by simp)⟩
  · rfl

/-- The weights in force and the costs they stand for: the four costs are minus the logarithms of a hit
probability `hp`, an insertion probability `ip` for each of the `v` words, a substitution probability `sp`
for each of the other `v - 1` words and a deletion probability `dp`, that are in the proportions given by
the factors, lie between zero and one and add up to one. -/
def ErrorModel (v hp i s d : ℝ) (c : RCosts) : Prop :=
  ∃ ip sp dp : ℝ, c.hit = -Real.log hp ∧ c.ins = -Real.log ip ∧ c.subst = -Real.log sp ∧
    c.del = -Real.log dp ∧ 0 < hp ∧ hp < 1 ∧ 0 < ip ∧ ip < 1 ∧ 0 < sp ∧ sp < 1 ∧ 0 < dp ∧ dp < 1 ∧
    hp + v * ip + (v - 1) * sp + dp = 1 ∧ ip * s = sp * i ∧ ip * d = dp * i

theorem current_valid {h : List (List ℝ)} {w : List ℝ} (hc : Current h w) : ValidWeights w := by
  induction hc with
  | default => exact ⟨128, 0.8, 1, 1, 1, rfl, by norm_num, by norm_num, by norm_num, by norm_num, by norm_num, by norm_num⟩
  | valid h => exact h
  | invalid _ _ ih => exact ih

theorem run_current {h : List (List ℝ)} {w : List ℝ} (hc : Current h w) :
    ∃ v hp i s d, w = [v, hp, i, s, d] ∧ run h = ⟨w, setErrorModel v hp i s d⟩ := by
  induction hc with
  | default => exact ⟨_, _, _, _, _, rfl, rfl⟩
  | valid hv =>
    obtain ⟨v, hp, i, s, d, rfl, -⟩ := id hv
    refine ⟨v, hp, i, s, d, rfl, ?_⟩
    rw [run, List.foldl_append, List.foldl_cons, List.foldl_nil, setWeights_valid _ _ _ _ _ _ hv]
  | invalid _ hu ih =>
    obtain ⟨v, hp, i, s, d, rfl, ih⟩ := ih
    refine ⟨v, hp, i, s, d, rfl, ?_⟩
    rw [run, List.foldl_append, List.foldl_cons, List.foldl_nil, setWeights_invalid _ _ hu]
    exact ih

theorem errorModel_of (v hp i s d : ℝ) (hv : 2 ≤ v) (h0 : 0 < hp) (h1 : hp < 1) (hi : 0 < i) (hs : 0 < s)
    (hd : 0 < d) : ErrorModel v hp i s d (setErrorModel v hp i s d) := by
  have hv0 : v ≠ 0 := by intro h; rw [h] at hv; norm_num at hv
  have hden : 0 < i * v + s * (v - 1) + d * 1 := by
    have : 0 ≤ s * (v - 1) := mul_nonneg hs.le (by linarith)
    have : 0 < i * v := mul_pos hi (by linarith)
    linarith
  have he : eConst v hp i s d = (1 - hp) / (i * v + s * (v - 1) + d * 1) := if_neg hv0
  have hpos : 0 < eConst v hp i s d := by rw [he]; exact div_pos (by linarith) hden
  have hsum : eConst v hp i s d * (i * v + s * (v - 1) + d * 1) = 1 - hp := by
    rw [he]; exact div_mul_cancel₀ _ hden.ne'
  obtain ⟨e, hee⟩ : ∃ e, e = eConst v hp i s d := ⟨_, rfl⟩
  rw [← hee] at hpos hsum
  have hip : 0 < e * i := mul_pos hpos hi
  have hsp : 0 < e * s := mul_pos hpos hs
  have hdp : 0 < e * d := mul_pos hpos hd
  have hvs : 0 ≤ e * s * (v - 1) := mul_nonneg hsp.le (by linarith)
  have hvi : 0 ≤ e * i * (v - 1) := mul_nonneg hip.le (by linarith)
  refine ⟨e * i, e * s, e * d, rfl, ?_, ?_, ?_, h0, h1, hip, ?_, hsp, ?_, hdp, ?_, ?_, ?_, ?_⟩
  · rw [hee]; rfl
  · rw [hee]; rfl
  · rw [hee]; rfl
  · nlinarith
  · nlinarith
  · nlinarith
  · linarith
  · ring
  · ring

/-- **C148, full statement** (false of the code, see below): after any history of calls of `setWeights`
the weights in force are the last valid ones, and the costs are those of the error model they define. -/
def C148_full : Prop :=
  ∀ (h : List (List ℝ)) (v hp i s d : ℝ), Current h [v, hp, i, s, d] →
    (run h).pars = [v, hp, i, s, d] ∧ ErrorModel v hp i s d (run h).costs

/-- Every history has weights in force. -/
theorem current_total (h : List (List ℝ)) : ∃ w, Current h w := by
  induction h using List.reverseRecOn with
  | nil => exact ⟨_, .default⟩
  | append_singleton h u ih =>
    obtain ⟨w, hw⟩ := ih
    by_cases hu : ValidWeights u
    · exact ⟨u, .valid hu⟩
    · exact ⟨w, .invalid hw hu⟩

/-- **C148 (partial).** After any history of calls of `setWeights` the weights in force are the last valid
vector (invalid ones change nothing), and if its vocabulary has at least two symbols the costs are minus
the logarithms of probabilities in the proportions of the factors that add up to one.  All costs are then
positive, as the edit distance needs.  Missing: smaller vocabulary sizes, which `setWeights` accepts
although they define no probabilities (`C148_counterexample`). -/
theorem C148_weights_partial (h : List (List ℝ)) (v hp i s d : ℝ) (hc : Current h [v, hp, i, s, d]) :
    (run h).pars = [v, hp, i, s, d] ∧
    (2 ≤ v → ErrorModel v hp i s d (run h).costs ∧ 0 < (run h).costs.hit ∧ 0 < (run h).costs.ins ∧
      0 < (run h).costs.subst ∧ 0 < (run h).costs.del) := by
  obtain ⟨v', hp', i', s', d', he, hr⟩ := run_current hc
  simp only [List.cons.injEq, and_true] at he
  obtain ⟨rfl, rfl, rfl, rfl, rfl⟩ := he
  obtain ⟨v', hp', i', s', d', he, h1, h2, h3, h4, h5, h6⟩ := current_valid hc
  simp only [List.cons.injEq, and_true] at he
  obtain ⟨rfl, rfl, rfl, rfl, rfl⟩ := he
  rw [hr]
  refine ⟨rfl, fun hv => ?_⟩
  have hm := errorModel_of v hp i s d hv h2 h3 h4 h5 h6
  refine ⟨hm, ?_⟩
  obtain ⟨ip, sp, dp, e1, e2, e3, e4, p0, p1, p2, p3, p4, p5, p6, p7, -⟩ := hm
  simp only [e1, e2, e3, e4]
  exact ⟨neg_pos.2 (Real.log_neg p0 p1), neg_pos.2 (Real.log_neg p2 p3), neg_pos.2 (Real.log_neg p4 p5),
    neg_pos.2 (Real.log_neg p6 p7)⟩

/-- Every history is covered, and the weights in force are unique. -/
theorem C148_every_history (h : List (List ℝ)) : ∃ v hp i s d, Current h [v, hp, i, s, d] := by
  obtain ⟨w, hw⟩ := current_total h
  obtain ⟨v, hp, i, s, d, rfl, -⟩ := run_current hw
  exact ⟨v, hp, i, s, d, hw⟩

/-- The weights `(1/10, 1/2, 1/10, 10, 1/10)` are accepted, but the probability of an insertion they give
is negative: no error model has these costs with the proportions of the factors. -/
theorem C148_counterexample : ¬ C148_full := by
  intro h
  have hv : ValidWeights [1/10, 1/2, 1/10, 10, 1/10] :=
    ⟨_, _, _, _, _, rfl, by norm_num, by norm_num, by norm_num, by norm_num, by norm_num, by norm_num⟩
  obtain ⟨-, ip, sp, dp, -, -, -, -, -, -, p0, -, p1, -, p2, -, e1, e2, e3⟩ :=
    h [[1/10, 1/2, 1/10, 10, 1/10]] (1/10) (1/2) (1/10) 10 (1/10) (Current.valid (h := []) hv)
  nlinarith

/-- A history with an invalid and a valid vector. -/
example : Current [[1, 2], [64, 1/2, 1, 2, 3], [64, 1, 1, 1, 1]] [64, 1/2, 1, 2, 3] := by
  refine Current.invalid (h := [[1, 2], [64, 1/2, 1, 2, 3]]) (.valid (h := [[1, 2]]) ?_) ?_
  · exact ⟨_, _, _, _, _, rfl, by norm_num, by norm_num, by norm_num, by norm_num, by norm_num, by norm_num⟩
  · rintro ⟨v, hp, i, s, d, he, -, -, h1, -⟩
    simp only [List.cons.injEq, and_true] at he
    linarith [he.2.1]

/-! ## C149: correction of a plain translation -/

/-- The text of a sentence: its words separated by single blanks. -/
def text : List Str → Str
  | [] => []
  | [w] => w
  | w :: u :: ws => w ++ ' ' :: text (u :: ws)

theorem copyRange_all (v : List Str) (h : v ≠ []) (hl : v.length < 2 ^ 32) :
    copyRange v 0 (pred32 v.length) = some v := by
  have h0 : 0 < v.length := List.length_pos_iff.2 h
  have hp : pred32 v.length = v.length - 1 := by
    unfold pred32
    have : v.length + 2 ^ 32 - 1 = (v.length - 1) + 2 ^ 32 := by omega
    rw [this, Nat.add_mod_right, Nat.mod_eq_of_lt (by omega)]
  rw [copyRange, hp]
  have : v.length - 1 + 1 - 0 = v.length := by omega
  rw [this]
  clear hp hl h0 h this
  suffices H : ∀ (u w : List Str), (List.range' u.length w.length).mapM (fun j => (u ++ w)[j]?) = some w from H [] v
  intro u w
  induction w generalizing u with
  | nil => rfl
  | cons a w ih =>
    rw [List.length_cons, List.range'_succ, List.mapM_cons]
    have e : (u ++ a :: w)[u.length]? = some a := by simp
    have := ih (u ++ [a])
    simp only [List.length_append, List.length_cons, List.length_nil, List.append_assoc, List.cons_append,
      List.nil_append] at this
    rw [e]
    simp [this]

theorem text_prefix_cons (a : Str) {x y : List Str} (hx : x ≠ []) (hy : y ≠ []) (h : text x <+: text y) :
    text (a :: x) <+: text (a :: y) := by
  cases x with
  | nil => exact absurd rfl hx
  | cons x0 xs =>
    cases y with
    | nil => exact absurd rfl hy
    | cons y0 ys =>
      obtain ⟨t, ht⟩ := h
      exact ⟨t, by simp [text, ← ht]⟩

theorem text_prefix_append (p : List Str) {x y : List Str} (hx : x ≠ []) (hy : y ≠ []) (h : text x <+: text y) :
    text (p ++ x) <+: text (p ++ y) := by
  induction p with
  | nil => exact h
  | cons a p ih => exact text_prefix_cons a (by simp [hx]) (by simp [hy]) ih

theorem text_word_prefix {l w : Str} (h : l <+: w) (s : List Str) : text [l] <+: text (w :: s) := by
  obtain ⟨t, rfl⟩ := h
  cases s with
  | nil => exact ⟨t, rfl⟩
  | cons a s => exact ⟨t ++ ' ' :: text (a :: s), by simp [text]⟩

theorem correctedSent_one (k : Costs) (out pref r : List Str) (a b : Nat)
    (e1 : copyRange out 0 a = some out) (e2 : copyRange pref 0 b = some pref)
    (h1 : correctStrGivenPref k out pref = some r) :
    correctedSent k out pref [a] [out] ⟨[a], [b]⟩ = restoreBlank r pref := by
  unfold correctedSent splitPref
  simp only [segmsFrom, e2, Option.bind_some, Option.map_some]
  simp only [numCuts, List.getLast?_singleton, countCuts, if_pos (Nat.le_refl a)]
  simp only [addLastSegm]
  rw [if_pos (by decide)]
  simp only [getLastOutSegm, List.getLast?_singleton]
  rw [if_pos List.length_singleton]
  simp only [e1, Option.bind_some,  Option.getD_some, h1, Option.map_some]
  rw [if_neg (by simp)]
  simp

theorem correct_nonempty (k : Costs) (out pref r : List Str) (d : Score) (m : Nat) (ho : out ≠ [])
    (hol : out.length < 2 ^ 32) (hpl : pref.length < 2 ^ 32) (hm : 1 ≤ m) (hp : pref ≠ [])
    (h1 : correctStrGivenPref k out pref = some r) (h2 : wordPrefix k out pref = some d) :
    correct k out pref m = (restoreBlank r pref).map fun s => [(-d, s)] := by
  have e1 := copyRange_all out ho hol
  have e2 := copyRange_all pref hp hpl
  have hp0 : pref.length ≠ 0 := by simpa using hp
  have hm' : ∀ (c : Score) (i : PrefAlignInfo), addSegm m c i = [(c, i)] := by
    intro c i; rw [addSegm, if_neg (by omega)]
  clear hol hpl
  rw [correct, align, if_neg hp0, h2]
  obtain ⟨a, ha⟩ : ∃ a, a = pred32 out.length := ⟨_, rfl⟩
  obtain ⟨b, hb⟩ : ∃ b, b = pred32 pref.length := ⟨_, rfl⟩
  rw [← ha] at e1 ⊢
  rw [← hb] at e2 ⊢
  clear ha hb
  simp only [segmsFrom, e1, Option.bind_some, Option.map_some, hm', correctAll]
  rw [correctedSent_one k out pref r a b e1 e2 h1]
  cases restoreBlank r pref <;> rfl

/-- **C149, full statement** (false of the code for several blanks at the end, see below): correcting a
non-empty translation gives one correction; its score is minus the distance of the translation to the
prefix, and its text begins with the text typed by the user. -/
def C149_full : Prop :=
  ∀ (k : Costs), k.del ≠ 0 → ∀ (out pref : List Str) (m : Nat), 1 ≤ m → out ≠ [] →
    out.length < 2 ^ 32 → pref.length < 2 ^ 32 → pref ≠ [] →
    (∀ a ∈ out, a ≠ [] ∧ ' ' ∉ a) → (∀ p ∈ pref, p ≠ []) → (∀ p ∈ pref.dropLast, ' ' ∉ p) →
    ∃ d s, wordPrefix k out pref = some d ∧ correct k out pref m = some [(-d, s)] ∧ text pref <+: text s

theorem not_pref_of_no_blank {a : Str} (h : ' ' ∉ a) : ¬ " pref".toList <:+ a := by
  rintro ⟨t, rfl⟩
  apply h
  have : ' ' ∈ " pref".toList := by decide
  exact List.mem_append_right _ this

theorem restoreBlank_spec (k : Costs) (d : Score) (out pref r : List Str) (h : Completes k d pref out r)
    (hp : ∀ p ∈ pref, p ≠ []) (hb : ∀ l, pref.getLast? = some l → ∀ u : Str, l ≠ u ++ [' ', ' ']) :
    ∃ s, restoreBlank r pref = some s ∧ text pref <+: text s ∧
      (s = r ∨ ∃ q w, r = q ++ [w] ∧ s = q ++ [w ++ [' ']] ∧ pref.getLast? = some (w ++ [' '])) := by
  obtain ⟨x', t, -, -, l, w, hl, rfl, hn, hy⟩ := h
  have hpe : pref = pref.dropLast ++ [l] := by
    have hne : pref ≠ [] := by intro h; rw [h] at hl; simp at hl
    rw [List.getLast?_eq_some_getLast hne, Option.some.injEq] at hl
    rw [← hl]; exact (List.dropLast_concat_getLast hne).symm
  obtain ⟨p, hpp⟩ : ∃ p, p = pref.dropLast := ⟨_, rfl⟩
  rw [← hpp] at hpe ⊢
  have hl0 : l ≠ [] := hp l (List.mem_of_getLast? hl)
  obtain ⟨c, hc⟩ : ∃ c, l.getLast? = some c := ⟨_, List.getLast?_eq_some_getLast hl0⟩
  have hcorr : (p ++ w :: t).getLast? = some ((w :: t).getLast (by simp)) := by
    rw [List.getLast?_append, List.getLast?_eq_some_getLast (l := w :: t) (by simp)]; rfl
  rw [restoreBlank, hl, Option.bind_some, hc, Option.bind_some]
  by_cases hcb : c = ' '
  · rw [if_pos hcb, hcorr, Option.bind_some]
    rw [hcb] at hc
    obtain ⟨n, hn0, hlw, -⟩ := hy hc
    have hn1 : n = 1 := by
      rcases n with _ | _ | n
      · omega
      · rfl
      · exfalso
        refine hb l hl (w ++ List.replicate n ' ') ?_
        rw [hlw, List.append_assoc]
        congr 1
        rw [show n + 1 + 1 = n + 2 from rfl, ← List.replicate_append_replicate (n := n) (m := 2)]
        rfl
    rw [hn1] at hlw
    have hlw : l = w ++ [' '] := hlw
    have base : ∀ t' : List Str, t' ≠ [] → text pref <+: text (p ++ w :: t') := by
      intro t' ht'
      rw [hpe]
      refine text_prefix_append p (by simp) (by simp) ?_
      cases t' with
      | nil => exact absurd rfl ht'
      | cons a t' => exact ⟨text (a :: t'), by simp [text, hlw]⟩
    split
    · rename_i hcc
      refine ⟨_, rfl, ?_, Or.inr ⟨(p ++ w :: t).dropLast, (w :: t).getLast (by simp), ?_, by rw [hcc], by rw [hcc]⟩⟩
      · cases t with
        | nil => rw [hpe]; simp
        | cons a t =>
          have : (p ++ w :: a :: t).dropLast ++ [l] = p ++ w :: ((a :: t).dropLast ++ [l]) := by
            rw [List.dropLast_append_of_ne_nil (by simp)]; simp
          rw [this]
          exact base _ (by simp)
      · have hne : p ++ w :: t ≠ [] := by simp
        rw [List.getLast?_eq_some_getLast hne, Option.some.injEq] at hcorr
        rw [← hcorr]
        exact (List.dropLast_concat_getLast hne).symm
    · rename_i hcc
      refine ⟨_, rfl, base t ?_, Or.inl rfl⟩
      rintro rfl
      exact hcc hlw.symm
  · rw [if_neg hcb]
    refine ⟨_, rfl, ?_, Or.inl rfl⟩
    rw [hpe]
    refine text_prefix_append p (by simp) (by simp) (text_word_prefix (hn ?_) t)
    rw [hc]; simpa using hcb

/-- **C149 (partial).** For a non-zero deletion cost, a non-empty translation and a non-empty prefix that
does not end with two blanks, there is one correction; its score is minus the distance of the translation
to the prefix and its text begins with the text typed by the user; apart from a blank restored at the end it
is the correction of `correctStrGivenPref` (C54).  Missing: several blanks at the end of the prefix
(`C149_counterexample`). -/
theorem C149_correct_partial (k : Costs) (hk : k.del ≠ 0) (out pref : List Str) (m : Nat) (hm : 1 ≤ m)
    (ho : out ≠ []) (hol : out.length < 2 ^ 32) (hpl : pref.length < 2 ^ 32) (hp0 : pref ≠ [])
    (hw : ∀ a ∈ out, a ≠ [] ∧ ' ' ∉ a) (hp : ∀ p ∈ pref, p ≠ []) (hp2 : ∀ p ∈ pref.dropLast, ' ' ∉ p)
    (hb : ∀ l, pref.getLast? = some l → ∀ u : Str, l ≠ u ++ [' ', ' ']) :
    ∃ d s r, wordPrefix k out pref = some d ∧ correct k out pref m = some [(-d, s)] ∧ text pref <+: text s ∧
      Completes k d pref out r ∧
      (s = r ∨ ∃ q w, r = q ++ [w] ∧ s = q ++ [w ++ [' ']] ∧ pref.getLast? = some (w ++ [' '])) := by
  obtain ⟨r, d, h1, h2, h3⟩ := C54_correct_sentence_partial k hk out pref (fun a ha => (hw a ha).1)
    (fun a ha => not_pref_of_no_blank (hw a ha).2) hp
    (fun p hp' h => hp2 p hp' (List.mem_of_getLast? h)) hp0
  obtain ⟨s, h4, h5, h6⟩ := restoreBlank_spec k d out pref r h3 hp hb
  refine ⟨d, s, r, h2, ?_, h5, h3, h6⟩
  rw [correct_nonempty k out pref r d m ho hol hpl hm hp0 h1 h2, h4]
  rfl

/-- **C149.** With an empty prefix a non-empty translation is returned unchanged with score 0. -/
theorem C149_empty_prefix (k : Costs) (out : List Str) (m : Nat) (hm : 1 ≤ m) (ho : out ≠ [])
    (hol : out.length < 2 ^ 32) : correct k out [] m = some [(0, out)] := by
  have e1 := copyRange_all out ho hol
  have hm' : ¬ 1 > m := by omega
  simp [correct, segmsFrom, e1, align, addSegm, hm', correctAll, numCuts, correctedSent, splitPref, addLastSegm]

/-- With two blanks after the last word of the prefix the blanks are lost. -/
theorem C149_counterexample : ¬ C149_full := by
  intro h
  obtain ⟨d, s, h1, h2, h3⟩ := h .default (by decide) ["a".toList] ["a  ".toList] 1 (by decide) (by decide)
    (by decide) (by decide) (by decide) (by decide) (by decide) (by decide)
  have h4 : (correct .default ["a".toList] ["a  ".toList] 1).map (fun l => l.map Prod.snd) = some [["a".toList]] := by
    decide +kernel
  rw [h2] at h4
  simp only [Option.map_some, List.map_cons, List.map_nil, Option.some.injEq, List.cons.injEq, and_true] at h4
  rw [h4] at h3
  revert h3
  decide

/-- An empty translation makes the program read outside its vector. -/
theorem C149_empty_translation (k : Costs) (pref : List Str) (m : Nat) : correct k [] pref m = none := by
  have key : ∀ n, copyRange [] 0 n = none := by
    intro n
    rw [copyRange, Nat.sub_zero, List.range'_succ, List.mapM_cons]
    rfl
  rw [correct, segmsFrom, key]
  rfl

example : correct .default ["the".toList, "house".toList, "is".toList] ["a".toList, "hou".toList] 1 =
    some [(-3, ["a".toList, "house".toList, "is".toList])] := by decide +kernel

example : correct .default ["the".toList, "house".toList] ["the".toList, "home ".toList] 1 =
    some [(-2, ["the".toList, "home ".toList])] := by decide +kernel

end Thot.Ecm

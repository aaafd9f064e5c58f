import Verif.Awk.Model
/-!
C41: fields of a line.  C42: lines of a file.
-/
namespace Thot.Awk

/-- Specification: cut the line at every separator. -/
def cut (fs : Char) : Str → List Str
  | [] => [[]]
  | c :: cs => if c = fs then [] :: cut fs cs else
      match cut fs cs with
      | [] => [[c]]
      | f :: r => (c :: f) :: r

/-- Specification: the fields are the non-empty pieces. -/
def fields (fs : Char) (s : Str) : List Str := (cut fs s).filter (fun f => !f.isEmpty)

theorem cut_ne_nil (fs : Char) (s : Str) : cut fs s ≠ [] := by
  cases s with
  | nil => simp [cut]
  | cons c cs => rw [cut]; split; · simp
                 split <;> simp

theorem fields_nil (fs : Char) : fields fs [] = [] := by simp [fields, cut]

theorem fields_sep (fs : Char) (s : Str) : fields fs (fs :: s) = fields fs s := by simp [fields, cut]

theorem fields_skip (fs : Char) (s : Str) : fields fs (skipFS fs s) = fields fs s := by
  induction s with
  | nil => rfl
  | cons c cs ih =>
    rw [skipFS]
    split
    · rename_i h; subst h; rw [ih, fields_sep]
    · rfl

theorem fields_one (fs c : Char) (h : c ≠ fs) : fields fs [c] = [[c]] := by simp [fields, cut, h]

theorem fields_end (fs c : Char) (s : Str) (h : c ≠ fs) : fields fs (c :: fs :: s) = [c] :: fields fs s := by
  simp [fields, cut, h]

/-- A field continued. -/
theorem fields_cont (fs c d : Char) (s : Str) (h : c ≠ fs) (hd : d ≠ fs) :
    ∃ f r, fields fs (d :: s) = f :: r ∧ fields fs (c :: d :: s) = (c :: f) :: r := by
  have hc := cut_ne_nil fs s
  cases hs : cut fs s with
  | nil => exact absurd hs hc
  | cons f r =>
    refine ⟨d :: f, r.filter (fun f => !f.isEmpty), ?_, ?_⟩
    · simp [fields, cut, hd, hs]
    · simp [fields, cut, h, hd, hs]

theorem skipFS_head (fs : Char) (s : Str) : skipFS fs s = [] ∨ ∃ c r, skipFS fs s = c :: r ∧ c ≠ fs := by
  induction s with
  | nil => exact Or.inl rfl
  | cons c cs ih =>
    rw [skipFS]; split
    · exact ih
    · rename_i h; exact Or.inr ⟨c, cs, rfl, h⟩

theorem nfLoop_spec (fs : Char) (nf : Nat) (s : Str) (h : s = [] ∨ ∃ c r, s = c :: r ∧ c ≠ fs) :
    nfLoop fs nf s = nf + (fields fs s).length := by
  induction hn : s.length using Nat.strongRecOn generalizing nf s with
  | ind n ih =>
    rcases h with rfl | ⟨c, r, rfl, hc⟩
    · simp [nfLoop, fields_nil]
    · rw [nfLoop, if_neg hc]
      cases r with
      | nil => simp [nfLoop, fields_one fs c hc]
      | cons d r =>
        simp only [List.cons_ne_nil, if_false]
        by_cases hd : d = fs
        · subst hd
          rw [nfLoop, if_pos rfl, ih (skipFS d r).length (by
            have := skipFS_len d r; simp at hn; omega) _ _ (skipFS_head d r) rfl, fields_skip,
            fields_end d c r hc]
          simp; omega
        · obtain ⟨f, q, h1, h2⟩ := fields_cont fs c d r hc hd
          rw [ih (d :: r).length (by simp at hn ⊢; omega) _ _ (Or.inr ⟨d, r, rfl, hd⟩) rfl, h1, h2]
          simp

/-- **C41.** `NF` is the number of fields. -/
theorem C41_NF (fs : Char) (s : Str) : getNF fs s = (fields fs s).length := by
  unfold getNF
  rw [nfLoop_spec fs 0 _ (skipFS_head fs s), fields_skip]; simp

theorem retLoop_spec (fs : Char) (n k : Nat) (acc s : Str) (hk : k ≤ n)
    (h : s = [] ∨ ∃ c r, s = c :: r ∧ c ≠ fs) :
    retLoop fs n k acc s = acc ++ (fields fs s)[n - k]?.getD [] := by
  induction hn : s.length using Nat.strongRecOn generalizing k acc s with
  | ind m ih =>
    rcases h with rfl | ⟨c, r, rfl, hc⟩
    · simp [retLoop, fields_nil]
    · rw [retLoop, if_neg hc]
      simp only
      cases r with
      | nil =>
        rw [fields_one fs c hc]
        by_cases hnk : n = k
        · subst hnk; simp
        · rw [if_neg (by simp [hnk]; omega)]
          simp only [hnk, and_false, if_false]
          rw [retLoop, List.getElem?_eq_none (by simp; omega)]; simp
      | cons d r =>
        simp only [List.cons_ne_nil, false_and, if_false]
        rw [if_neg (by omega)]
        by_cases hd : d = fs
        · subst hd
          rw [retLoop, if_pos rfl, fields_end d c r hc]
          by_cases hnk : n = k
          · subst hnk; simp
          · rw [if_neg (by omega), if_neg hnk, ih (skipFS d r).length (by
              have := skipFS_len d r; simp at hn; omega) (k + 1) acc _ (by omega) (skipFS_head d r) rfl,
              fields_skip]
            have : n - k = (n - (k + 1)) + 1 := by omega
            rw [this]; simp
        · obtain ⟨f, q, h1, h2⟩ := fields_cont fs c d r hc hd
          rw [ih (d :: r).length (by simp at hn ⊢; omega) k _ _ hk (Or.inr ⟨d, r, rfl, hd⟩) rfl, h1, h2]
          by_cases hnk : n = k
          · subst hnk; simp
          · have : n - k = (n - (k + 1)) + 1 := by omega
            rw [this, if_neg hnk]; simp

/-- **C41.** `dollar(n)` is the n-th field (counting from one), empty beyond the last, the whole line for 0. -/
theorem C41_dollar (fs : Char) (s : Str) :
    dollar fs s 0 = s ∧ ∀ n, dollar fs s (n + 1) = (fields fs s)[n]?.getD [] := by
  refine ⟨rfl, fun n => ?_⟩
  unfold dollar
  rw [if_neg (by omega), C41_NF]
  split <;> rename_i h
  · rw [List.getElem?_eq_none (by omega)]; rfl
  · unfold retrieveField
    rw [show n + 1 - 1 = n from rfl, retLoop_spec fs n 0 [] _ (by omega) (skipFS_head fs s), fields_skip]; simp

example : fields ' ' "  a bc  d ".toList = ["a".toList, "bc".toList, "d".toList] := by decide +kernel
example : getNF ' ' "  a bc  d ".toList = 3 ∧ dollar ' ' "  a bc  d ".toList 2 = "bc".toList := by decide +kernel

/-- Joining non-empty separator-free pieces by one separator gives them back as fields. -/
theorem fields_two (fs : Char) (a b : Str) (ha : a ≠ []) (hb : b ≠ []) (h1 : ∀ c ∈ a, c ≠ fs)
    (h2 : ∀ c ∈ b, c ≠ fs) : fields fs (a ++ fs :: b) = [a, b] := by
  have hcut : ∀ b : Str, (∀ c ∈ b, c ≠ fs) → cut fs b = [b] := by
    intro b hb
    induction b with
    | nil => rfl
    | cons c b ih =>
      rw [cut, if_neg (hb c List.mem_cons_self), ih fun x hx => hb x (List.mem_cons_of_mem _ hx)]
  have hcut2 : ∀ a : Str, (∀ c ∈ a, c ≠ fs) → cut fs (a ++ fs :: b) = [a, b] := by
    intro a ha
    induction a with
    | nil => simp [cut, hcut b h2]
    | cons c a ih =>
      rw [List.cons_append, cut, if_neg (ha c List.mem_cons_self),
        ih fun x hx => ha x (List.mem_cons_of_mem _ hx)]
  unfold fields
  rw [hcut2 a h1]
  cases a with
  | nil => exact absurd rfl ha
  | cons => cases b with
    | nil => exact absurd rfl hb
    | cons => rfl

/-! ## C42 -/

/-- Full statement of C42: the lines of a text (characters other than newline and NUL), each followed by a
newline except possibly the last, are read back. -/
def C42_full : Prop := ∀ (ls : List Str) (last : Str),
  (∀ l ∈ ls, ∀ c ∈ l, c ≠ '\n' ∧ c ≠ '\x00') → last ≠ [] → (∀ c ∈ last, c ≠ '\n' ∧ c ≠ '\x00') →
  ∀ fuel, ls.length + 2 ≤ fuel →
    readAll fuel (ls.flatMap (fun l => l ++ ['\n'])) = ls ∧
    readAll fuel (ls.flatMap (fun l => l ++ ['\n']) ++ last) = ls ++ [last]

/-- **C42 is false of the code**: the last character of a file without a final newline is lost. -/
theorem C42_counterexample : ¬ C42_full := by
  intro h
  have := (h [] ['a', 'b'] (by simp) (by simp) (by decide) 2 (by simp)).2
  revert this; decide

theorem getline_nl (l r : Str) (h : ∀ c ∈ l, c ≠ '\n') : getline (l ++ '\n' :: r) = some (l ++ ['\n'], r) := by
  induction l with
  | nil => simp [getline]
  | cons c l ih =>
    rw [List.cons_append, getline, if_neg (h c List.mem_cons_self),
      ih fun x hx => h x (List.mem_cons_of_mem _ hx)]
    rfl

theorem getline_end (l : Str) (hne : l ≠ []) (h : ∀ c ∈ l, c ≠ '\n') : getline l = some (l, []) := by
  induction l with
  | nil => exact absurd rfl hne
  | cons c l ih =>
    rw [getline, if_neg (h c List.mem_cons_self)]
    cases l with
    | nil => rfl
    | cons d l => rw [ih (by simp) fun x hx => h x (List.mem_cons_of_mem _ hx)]

theorem cstr_id (l : Str) (h : ∀ c ∈ l, c ≠ '\x00') : cstr l = l := by
  unfold cstr
  induction l with
  | nil => rfl
  | cons c l ih =>
    rw [List.takeWhile_cons_of_pos (by simpa using h c List.mem_cons_self),
      ih fun x hx => h x (List.mem_cons_of_mem _ hx)]

theorem getln_nl (l r : Str) (h : ∀ c ∈ l, c ≠ '\n' ∧ c ≠ '\x00') : getln (l ++ '\n' :: r) = some (l, r) := by
  unfold getln
  rw [getline_nl l r fun c hc => (h c hc).1]
  simp only [List.dropLast_concat]
  rw [cstr_id l fun c hc => (h c hc).2]

theorem readAll_append (ls : List Str) (r : Str) (h : ∀ l ∈ ls, ∀ c ∈ l, c ≠ '\n' ∧ c ≠ '\x00') (fuel : Nat) :
    readAll (ls.length + fuel) (ls.flatMap (fun l => l ++ ['\n']) ++ r) = ls ++ readAll fuel r := by
  induction ls with
  | nil => simp
  | cons l ls ih =>
    have e : (l :: ls).flatMap (fun l => l ++ ['\n']) ++ r
        = l ++ '\n' :: (ls.flatMap (fun l => l ++ ['\n']) ++ r) := by simp
    have e2 : (l :: ls).length + fuel = (ls.length + fuel) + 1 := by simp; omega
    rw [e, e2, readAll, getln_nl l _ (h l List.mem_cons_self)]
    simp only
    rw [ih fun x hx => h x (List.mem_cons_of_mem _ hx)]; rfl

/-- **C42 (partial).** Files in which every line ends in a newline are read line by line. Missing: a last line
without newline, see `C42_unterminated`. -/
theorem C42_lines_partial (ls : List Str) (h : ∀ l ∈ ls, ∀ c ∈ l, c ≠ '\n' ∧ c ≠ '\x00') (fuel : Nat)
    (hf : ls.length < fuel) : readAll fuel (ls.flatMap (fun l => l ++ ['\n'])) = ls := by
  obtain ⟨d, rfl⟩ : ∃ d, fuel = ls.length + (d + 1) := ⟨fuel - ls.length - 1, by omega⟩
  have := readAll_append ls [] h (d + 1)
  simpa [readAll, getln, getline] using this

/-- **C42.** What the code returns for a file whose last line is not terminated: its last character is lost. -/
theorem C42_unterminated (ls : List Str) (last : Str) (h : ∀ l ∈ ls, ∀ c ∈ l, c ≠ '\n' ∧ c ≠ '\x00')
    (hne : last ≠ []) (hl : ∀ c ∈ last, c ≠ '\n' ∧ c ≠ '\x00') (fuel : Nat) (hf : ls.length + 2 ≤ fuel) :
    readAll fuel (ls.flatMap (fun l => l ++ ['\n']) ++ last) = ls ++ [last.dropLast] := by
  obtain ⟨d, rfl⟩ : ∃ d, fuel = ls.length + (d + 2) := ⟨fuel - ls.length - 2, by omega⟩
  rw [readAll_append ls last h (d + 2), readAll]
  unfold getln
  rw [getline_end last hne fun c hc => (hl c hc).1]
  simp only
  rw [cstr_id _ fun c hc => (hl c (List.dropLast_subset _ hc)).2, readAll]
  simp [getln, getline]

example : readAll 5 "a b\n\nc\n".toList = ["a b".toList, [], "c".toList] := by decide +kernel

end Thot.Awk

import Verif.WordModel
import Verif.LexProps

/-!
# Words and capabilities: properties

C76.
-/

namespace Sieve.Args

open Sieve.Lex

/-- A byte string as a number. -/
def code (s : List UInt8) : Nat := s.foldl (fun n c => n * 256 + c.toNat) 0

/-- The numbers of the words in the table. -/
def wordCodes : List Nat := [
  27413455118819687, 1796568196835925321074, 27413455319692147, 1796568207831344571763, 6384748, 418430873446,
  7020682336977644644, 418465279846, 1651467385, 422826041707, 108273666581605,
  1997298776537048107042012650632293, 1997298776537049332857779648034405, 27718088759796581,
  469569756306368051310450, 7165066978299309683, 27988542884245108, 120209876350526254462103653,
  27988542917800564, 1668247673, 427071729268, 109342978307173, 120238284192284578825729125, 1684108389,
  1684109683, 31071114377004110451153593714, 110386907015532, 28263441980551780, 110429739247982,
  1853136790270679020645, 1701606245, 435611199846, 28550345947837285, 1871075475288520749676,
  7308909423251910757, 122623152408251946745818740, 28554752550069108, 435711799154, 111567839655027,
  122670339823312599263836276, 439721161573, 6710115, 7379548647239611503, 439855772532, 439904986995,
  31702201989185970367564444276, 1718775661, 113715422847340, 114767673191525, 29380545845420391,
  114784634955122, 29384866548511347, 26982, 452722783845, 497867277625445927773029, 29676245855069285,
  452823639416, 26995, 1801807216, 1818325876, 119182899770472, 1818850164, 2000274726039905727092,
  465726563698, 512071772150550785848180, 8666017209049936156074412569715, 2017714364698607511908,
  567936103812296616207089202030146675, 30787924973348211, 30792318992869221, 7882834684426679393,
  2218820709212950921511863678366835, 1835625829, 1851878757, 7237492, 121424973489785,
  2707867394534039354589268988980584835577245393959736931449, 1869505381, 8030046131791487340,
  31367367702310515, 34491151389697827999157546597, 1870030194, 482671223149, 31636739359862388,
  8099005345012015468, 535793712776471437075832, 8989126850693182437014655562340, 7496055, 8243105097025151860,
  491327546744, 125779902292852, 540220785850234650255719, 32199680874079077, 32199685320569445, 7497076,
  125780071117422, 32481100067398771, 2340514573257318971143880559391841,
  658796284998554823799821743758910714453823812723, 7562612, 32481172930716007, 1936292453,
  8318255634485441396, 545145486665152346813285, 39281872169726204883743662828164704597107, 1937010544,
  126943972912743, 32498687873999732, 32498688043085925, 1952807028, 1953658213, 1954115685, 504363246962,
  8461816685897541988, 504397587826, 554591012837293036827508, 1970496882, 8530208439432474478,
  2401043016787048916271750189773684, 2639974715747726557753433438441081925691535204, 508440638821,
  2184314065357789033332, 2054123109, 1702257004, 465725251948, 512852847717, 7103860, 7165066978433856869]

/-- The numbers of the capabilities in the table. -/
def capCodes : List Nat := [
  7308909423251910757, 31391526942293178671587160942, 8835929314993902822251008180839723583038073,
  7379548647239611503, 34515250435241781853431487589780552967538, 8662033119337733202079516333500825101822305,
  8662033119337733202079516334572904572544372, 159786308110419191228387238662800683522624002159427468823191920,
  159786308110419191228387238662800683522624002162545658030090595, 1651467385, 27988542917800564, 1668247673,
  540220709849809246118252, 1684108389, 452823639416, 1853136790270679020645, 2183737591333735130483,
  478811287990461037569394, 31702201989185970367564444276, 1835625829, 32199680874079077, 28550345947837285,
  122670339823312599263836276, 28550397621266041, 35403866809213934128895128430,
  9965302585590659058965073744401954814190201, 122623152408251946745818740, 125779902292852, 28554752550069108,
  7311722004010464371, 545237503644304253743987, 8530208439432474478, 157354571977608201247061492114517812339,
  6710115, 30787877879312248, 2017714364698607511908, 33852867205020568210313933921,
  2340514573257318971143880559391841, 139557244586278999576376165, 497866196974780668798835, 452722783845,
  1944789832203369805413, 29676245855069285, 491327546744, 8318255634485441396, 35726635909882700585830741363,
  2184314065357789033332, 10316813964295944041917249784896155598548069,
  2903924970328371450706699286242373937751416053272021003891]

theorem wordCodes_eq : wordTable.map (fun p => code (bytes p.1)) = wordCodes := by decide +kernel

theorem capCodes_eq : capTable.map (fun p => code (bytes p.1)) = capCodes := by decide +kernel

theorem wordCodes_nodup : wordCodes.Nodup := by decide +kernel

theorem capCodes_nodup : capCodes.Nodup := by decide +kernel

/-- In a table whose keys are different, looking up a key finds its entry. -/
theorem find_key {α : Type} : ∀ (t : List (String × α)), (t.map (fun p => code (bytes p.1))).Nodup →
    ∀ p ∈ t, t.find? (fun q => bytes q.1 = bytes p.1) = some p
  | [], _, p, hp => by cases hp
  | q :: t, hn, p, hp => by
    rw [List.map_cons, List.nodup_cons] at hn
    rcases List.mem_cons.1 hp with rfl | hp
    · simp
    · rw [List.find?_cons_of_neg, find_key t hn.2 p hp]
      intro h
      simp at h
      apply hn.1
      rw [h]
      exact List.mem_map.2 ⟨p, hp, rfl⟩

theorem table_at (w : Word) : wordTable[w.ctorIdx]? = some (showWord w, w) := by
  cases w <;> rfl

theorem table_lookup (p : String × Word) (hp : p ∈ wordTable) : lookupWord (bytes p.1) = some p.2 := by
  rw [lookupWord, find_key _ (wordCodes_eq ▸ wordCodes_nodup) p hp]
  rfl

/-- Reading the printed form of a word gives the word. -/
theorem lookup_show (w : Word) : lookupWord (bytes (showWord w)) = some w :=
  table_lookup (showWord w, w) (List.mem_of_getElem? (table_at w))

theorem table_show : ∀ p ∈ wordTable, p.1 = showWord p.2 := by decide +kernel

/-- C76 (1): a text is a word exactly if it is the printed form of that word. -/
theorem word_iff (s : List UInt8) (w : Word) : lookupWord s = some w ↔ s = bytes (showWord w) := by
  constructor
  · intro h
    unfold lookupWord at h
    cases hf : wordTable.find? (fun p => bytes p.1 = s) with
    | none => simp [hf] at h
    | some p =>
      rw [hf] at h
      have h1 := List.find?_some hf
      have h2 := table_show p (List.mem_of_find?_eq_some hf)
      simp at h h1
      rw [← h1, ← h, h2]
  · rintro rfl
    exact lookup_show w

theorem table_chars : ∀ p ∈ wordTable, (bytes p.1).all (fun c => isLower c || c = 95) = true ∧
    ((bytes p.1).head?.any isLower) = true := by
  decide +kernel

theorem show_chars (w : Word) : (∀ c ∈ bytes (showWord w), isLower c || c = 95) ∧
    ∃ c cs, bytes (showWord w) = c :: cs ∧ isLower c = true := by
  have h := table_chars (showWord w, w) (List.mem_of_getElem? (table_at w))
  refine ⟨by simpa using h.1, ?_⟩
  have h2 := h.2
  cases he : bytes (showWord w) with
  | nil => simp [he] at h2
  | cons c cs => simp [he] at h2; exact ⟨c, cs, rfl, h2⟩

/-- No word begins with a digit: the assumption of the theorems about numbers. -/
theorem words_ok {F : Type} (x : Ext Word F) (hx : x.word = lookupWord) : WordsOk x := by
  intro c w h
  rw [hx]
  cases hl : lookupWord (c :: w) with
  | none => rfl
  | some v =>
    rw [word_iff] at hl
    obtain ⟨_, c', cs, he, hc⟩ := show_chars v
    rw [he, List.cons.injEq] at hl
    rw [hl.1] at h
    simp [isLower, isDigit, digit] at h hc
    have h1 := h.2
    have h2 := hc.1
    have : (97 : UInt8) ≤ 57 := Std.le_trans h2 h1
    exact absurd this (by decide)

set_option maxRecDepth 20000 in
theorem lower_word (c : UInt8) (h : isLower (lowerByte c) || lowerByte c = 95) :
    wordChar c = true ∧ (isLower (lowerByte c) → (isLower c || isUpper c)) := by
  revert c
  have : ∀ n : Fin 256, (isLower (lowerByte (UInt8.ofNat n)) || lowerByte (UInt8.ofNat n) = 95) = true →
    wordChar (UInt8.ofNat n) = true ∧
      (isLower (lowerByte (UInt8.ofNat n)) → (isLower (UInt8.ofNat n) || isUpper (UInt8.ofNat n))) := by decide
  intro c
  have := this ⟨c.toNat, c.toNat_lt⟩
  simpa using this

theorem word_buf (t : List UInt8) (w : Word) (ht : t.map lowerByte = bytes (showWord w)) :
    (∀ c ∈ t, wordChar c) ∧ ∃ c cs, t = c :: cs ∧ (isLower c || isUpper c) = true := by
  obtain ⟨h1, c', cs', he, hc⟩ := show_chars w
  rw [← ht] at h1 he
  refine ⟨fun c hc => (lower_word c (h1 _ (List.mem_map_of_mem hc))).1, ?_⟩
  cases t with
  | nil => cases he
  | cons c cs =>
    rw [List.map_cons, List.cons.injEq] at he
    refine ⟨c, cs, rfl, ?_⟩
    exact (lower_word c (h1 _ (by simp))).2 (by rw [he.1]; exact hc)

/-- C76 (2): the printed form of a word, in any mix of capital and small letters, is read as that word. -/
theorem word_read {F : Type} (x : Ext Word F) (hx : x.word = lookupWord) (l : UInt8) (t : List UInt8) (w : Word)
    (ht : t.map lowerByte = bytes (showWord w)) (d : UInt8) (rest : List UInt8) (hd : delim d) :
    lex x ⟨[], false, l, .none⟩ (t ++ d :: rest)
      = (.ident w :: (lex x {} (d :: rest)).1, (lex x {} (d :: rest)).2) := by
  obtain ⟨h1, c, cs, rfl, hc⟩ := word_buf t w ht
  rw [lex_word x false _ _ _ _ h1, List.nil_append, lex_delim x _ _ _ d rest (by simp) hd, ht]
  simp [wordToken, hx, lookup_show]

/-- C76 (2): with a colon in front, it is read as that tag. -/
theorem tag_read {F : Type} (x : Ext Word F) (hx : x.word = lookupWord) (l : UInt8) (t : List UInt8) (w : Word)
    (ht : t.map lowerByte = bytes (showWord w)) (d : UInt8) (rest : List UInt8) (hd : delim d) :
    lex x ⟨[], false, l, .none⟩ (58 :: (t ++ d :: rest))
      = (.tag w :: (lex x {} (d :: rest)).1, (lex x {} (d :: rest)).2) := by
  obtain ⟨h1, c, cs, rfl, hc⟩ := word_buf t w ht
  have hs : step x ⟨[], false, l, .none⟩ 58 (c :: cs ++ d :: rest) = .go ⟨[], true, 58, .none⟩ 0 [] := by
    have : step x ⟨[], false, l, .none⟩ 58 (c :: cs ++ d :: rest)
      = stepNone x ⟨[], false, 58, .none⟩ 58 (c :: cs ++ d :: rest) := rfl
    rw [this]
    unfold stepNone
    rw [if_neg (by decide), if_neg (by decide), if_pos rfl, if_pos (by simpa using hc)]
  rw [lex_go x hs]
  simp only [List.drop_zero, List.nil_append]
  rw [lex_word x true _ _ _ _ h1, List.nil_append, lex_delim x _ _ _ d rest (by simp) hd, ht]
  simp [wordToken, hx, lookup_show]

/-- `FileInto "x"` and `:Copy "x"`. -/
example {F : Type} (x : Ext Word F) (hx : x.word = lookupWord) :
    lex x {} (bytes "FileInto \"x\"") =
      (.ident .FileInto :: (lex x {} (bytes " \"x\"")).1, (lex x {} (bytes " \"x\"")).2) ∧
    lex x {} (bytes ":Copy \"x\"") = (.tag .Copy :: (lex x {} (bytes " \"x\"")).1, (lex x {} (bytes " \"x\"")).2) :=
  ⟨word_read x hx 0 (bytes "FileInto") .FileInto (by decide +kernel) 32 (bytes "\"x\"") (by decide),
   tag_read x hx 0 (bytes "Copy") .Copy (by decide +kernel) 32 (bytes "\"x\"") (by decide)⟩

/-! ## Capabilities -/

theorem cap_lookup (p : String × Cap) (hp : p ∈ capTable) : lookupCap (bytes p.1) = some p.2 := by
  rw [lookupCap, find_key _ (capCodes_eq ▸ capCodes_nodup) p hp]
  rfl

theorem cap_show : ∀ p ∈ capTable, bytes p.1 = showCap p.2 := by decide +kernel

/-- The capabilities with a fixed name. -/
def known : Cap → Bool
  | .Other _ | .Comparator (.Other _) => false
  | _ => true

theorem cap_known : ∀ p ∈ capTable, known p.2 = true := by decide +kernel

theorem known_mem (c : Cap) (h : known c) : c ∈ capTable.map (·.2) := by
  cases c with
  | Other s => exact (Bool.false_ne_true h).elim
  | Comparator k => cases k with
    | Other s => exact (Bool.false_ne_true h).elim
    | _ => decide +kernel
  | _ => decide +kernel

theorem lookupCap_some {s : List UInt8} {c : Cap} (h : lookupCap s = some c) : s = showCap c ∧ known c := by
  unfold lookupCap at h
  cases hf : capTable.find? (fun p => bytes p.1 = s) with
  | none => simp [hf] at h
  | some p =>
    rw [hf] at h
    have h1 := List.find?_some hf
    have hm := List.mem_of_find?_eq_some hf
    have h2 := cap_show p hm
    have h3 := cap_known p hm
    simp at h h1
    rw [h] at h2 h3
    exact ⟨h1.symm.trans h2, h3⟩

/-- C76 (3): the names of the fixed capabilities are read as these capabilities, and nothing else is. -/
theorem cap_iff (s : List UInt8) (c : Cap) (h : known c) : parseCap s = c ↔ s = showCap c := by
  constructor
  · intro e
    unfold parseCap at e
    cases hl : lookupCap s with
    | some c' => rw [hl] at e; exact e ▸ (lookupCap_some hl).1
    | none =>
      rw [hl] at e
      dsimp only at e
      split at e <;> subst e <;> exact (Bool.false_ne_true h).elim
  · rintro rfl
    obtain ⟨p, hp, rfl⟩ := List.mem_map.1 (known_mem c h)
    rw [← cap_show p hp, parseCap, cap_lookup p hp]

/-- What `strip_prefix` does. -/
theorem stripPrefix_iff (p s r : List UInt8) : stripPrefix p s = some r ↔ s = p ++ r := by
  unfold stripPrefix
  constructor
  · intro h
    split at h
    · rename_i hp
      injection h with h
      rw [← h]
      nth_rw 1 [hp]
      exact (List.take_append_drop _ _).symm
    · cases h
  · rintro rfl
    simp

/-- C76 (4): different names are different capabilities, so `require` declares nothing but what it names. -/
theorem cap_injective (s t : List UInt8) (h : parseCap s = parseCap t) : s = t := by
  unfold parseCap at h
  cases hs : lookupCap s with
  | some c =>
    obtain ⟨e1, k1⟩ := lookupCap_some hs
    rw [hs] at h
    cases ht : lookupCap t with
    | some c' =>
      rw [ht] at h
      rw [e1, (lookupCap_some ht).1]
      exact congrArg showCap h
    | none =>
      rw [ht] at h
      dsimp only at h
      split at h <;> subst h <;> exact (Bool.false_ne_true k1).elim
  | none =>
    rw [hs] at h
    cases ht : lookupCap t with
    | some c' =>
      rw [ht] at h
      have k1 := (lookupCap_some ht).2
      dsimp only at h
      split at h <;> subst h <;> exact (Bool.false_ne_true k1).elim
    | none =>
      rw [ht] at h
      dsimp only at h
      split at h
      · rename_i c hc
        split at h
        · rename_i d hd
          rw [stripPrefix_iff] at hc hd
          injection h with h
          injection h with h
          rw [hc, hd, h]
        · cases h
      · split at h
        · cases h
        · injection h

/-- C76 (5): the printed form of a capability read from a name is the name, except for comparators without a fixed
name, where the prefix is left out. -/
theorem cap_print_partial (s : List UInt8) (h : ∀ n, parseCap s ≠ .Comparator (.Other n)) : showCap (parseCap s) = s := by
  cases hl : lookupCap s with
  | some c =>
    rw [parseCap, hl]
    exact (lookupCap_some hl).1.symm
  | none =>
    cases hp : stripPrefix (bytes "comparator-") s with
    | some n => exact absurd (by rw [parseCap, hl]; simp only [hp]) (h n)
    | none => rw [parseCap, hl]; simp only [hp]; rfl

/-- C76 (5) fails for the other comparators: `comparator-x` is printed as `x`, which is another capability. -/
theorem cap_print_comparator : showCap (parseCap (bytes "comparator-x")) = bytes "x" ∧
    parseCap (showCap (parseCap (bytes "comparator-x"))) ≠ parseCap (bytes "comparator-x") := by decide +kernel

example : parseCap (bytes "fileinto") = .FileInto ∧ parseCap (bytes "vnd.dovecot.pipe") = .Other (bytes "vnd.dovecot.pipe") ∧
    parseCap (bytes "FileInto") = .Other (bytes "FileInto") := by decide +kernel

end Sieve.Args

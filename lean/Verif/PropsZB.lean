import Verif.Serve
/-!
# C60, C61: what the server modules send to whom
-/

namespace Brunsli

/-- The parameter of an element is a quality of zero: `q=0`, `q=0.000`. -/
def zeroQuality (p : List Char) : Bool :=
  match (p.filter fun c => !isSpaceChar c).map lowerChar with
  | 'q' :: '=' :: '0' :: rest => rest.all fun c => c == '.' || c == '0'
  | _ => false

/-- The header says that `image/x-j` is acceptable (RFC 9110, 12.4.2 and 12.5.1): an element names it, in upper or lower case, without a quality of zero. -/
def wants (h : List Char) : Bool :=
  (listElements h).any fun e => (namedType e).map lowerChar == mimeType && (e.splitOn ';').tail.all fun p => !zeroQuality p

/-! ## C60 -/

/-- **C60, Apache, what is recognised**: in every header value in which no element begins with a semicolon, exactly the elements that name the type in lower case. -/
theorem C60_apache_recognised (h : List Char) (hn : NoBareParameters h) :
    acceptBrunsli (some h) = .ok (decide (∃ e ∈ listElements h, namedType e = mimeType)) := acceptLoop_spec _ h (Nat.lt_succ_self _) hn

/-- **C60, Apache.**  If in a header value no element begins with a semicolon, and the elements that name the type do it in lower case and without a quality of zero,
Brunsli is accepted for the client just if it says so.  Missing: other header values, for which it is false (`C60_apache_crash_false`, `C60_apache_refused_false`). -/
theorem C60_apache_partial (h : List Char) (hn : NoBareParameters h)
    (hp : ∀ e ∈ listElements h, (namedType e).map lowerChar = mimeType → namedType e = mimeType ∧ ∀ p ∈ (e.splitOn ';').tail, zeroQuality p = false) :
    acceptBrunsli (some h) = .ok (wants h) := by
  rw [C60_apache_recognised h hn]
  congr 1
  rw [Bool.eq_iff_iff, decide_eq_true_iff]
  unfold wants
  rw [List.any_eq_true]
  constructor
  · rintro ⟨e, he, h1⟩
    have h2 : (namedType e).map lowerChar = mimeType := by rw [h1]; exact lowerChar_mime
    refine ⟨e, he, ?_⟩
    rw [Bool.and_eq_true, beq_iff_eq, List.all_eq_true]
    exact ⟨h2, fun p hpm => by rw [(hp e he h2).2 p hpm]; rfl⟩
  · rintro ⟨e, he, h1⟩
    rw [Bool.and_eq_true, beq_iff_eq] at h1
    exact ⟨e, he, (hp e he h1.1).1⟩

/-- `image/webp,image/x-j;q=0.8,*/*` -/
def sampleAccept : List Char :=
  ['i', 'm', 'a', 'g', 'e', '/', 'w', 'e', 'b', 'p', ',', 'i', 'm', 'a', 'g', 'e', '/', 'x', '-', 'j', ';', 'q', '=', '0', '.', '8', ',', '*', '/', '*']

instance (h : List Char) : Decidable (NoBareParameters h) := inferInstanceAs (Decidable (∀ e ∈ listElements h, e.head? ≠ some ';'))

example : NoBareParameters sampleAccept ∧ (∀ e ∈ listElements sampleAccept, (namedType e).map lowerChar = mimeType → namedType e = mimeType ∧
    ∀ p ∈ (e.splitOn ';').tail, zeroQuality p = false) ∧ wants sampleAccept = true := by decide +kernel

/-- **C60, Apache, what is sent**: only what is beside the requested file, and only if the client was accepted. -/
theorem C60_apache_sent (accept : Option (List Char)) (translated : Bool) (beside : Beside) (bytes : List Nat) (varies : List String)
    (h : apacheHandler accept translated beside = .ok (.brunsli bytes varies)) :
    (∃ value, accept = some value ∧ acceptBrunsli (some value) = .ok true) ∧ (beside = .file bytes ∨ beside = .special) := by
  unfold apacheHandler at h
  obtain ⟨ok, h1, h2⟩ := Run.bind_ok h
  cases ok with
  | false => cases h2
  | true =>
    refine ⟨?_, ?_⟩
    · cases accept with
      | none => cases h1
      | some value => exact ⟨value, rfl, h1⟩
    rw [if_neg (by decide)] at h2
    cases translated with
    | false => cases h2
    | true =>
      rw [if_neg (by decide)] at h2
      cases beside with
      | file b => cases h2; exact .inl rfl
      | special => exact .inr rfl
      | missing => cases h2
      | denied => cases h2
      | directory => cases h2

/-- **C60, Apache, who gets it**: every client that was accepted, if the file is there. -/
theorem C60_apache_gets (accept : Option (List Char)) (h : acceptBrunsli accept = .ok true) (bytes : List Nat) :
    apacheHandler accept true (.file bytes) = .ok (.brunsli bytes []) := by
  unfold apacheHandler
  rw [h]
  rfl

example : acceptBrunsli (some sampleAccept) = .ok true := by
  rw [C60_apache_partial _ (by decide +kernel) (by decide +kernel)]
  congr 1

/-- **C60 is false of the code (Apache)**: an element of semicolons only, in a header value in which no element before it is recognised, makes the module read through a null pointer. -/
theorem C60_apache_crash_false (n : Nat) (rest : List Char) (translated : Bool) (beside : Beside) :
    apacheHandler (some (List.replicate (n + 1) ';' ++ ',' :: rest)) translated beside = .ub := by
  have e1 : strtok ',' (List.replicate (n + 1) ';' ++ ',' :: rest) = some (List.replicate (n + 1) ';', rest) := by
    have hd : (List.replicate (n + 1) ';' ++ ',' :: rest).dropWhile (· == ',') = List.replicate (n + 1) ';' ++ ',' :: rest := by
      rw [List.replicate_succ, List.cons_append]
      exact List.dropWhile_cons_of_neg (by decide)
    have hall : ∀ c ∈ List.replicate (n + 1) ';', (c != ',') = true := fun c hc => by rw [(List.mem_replicate.mp hc).2]; decide
    unfold strtok
    rw [hd]
    dsimp only
    rw [if_neg (by simp), List.takeWhile_append_of_pos hall, List.dropWhile_append_of_pos hall]
    simp
  have e2 : strtok ';' (List.replicate (n + 1) ';') = none := by
    have hd : (List.replicate (n + 1) ';').dropWhile (· == ';') = [] := by
      generalize n + 1 = m
      induction m with
      | zero => rfl
      | succ m ih => rw [List.replicate_succ]; exact (List.dropWhile_cons_of_pos (by decide)).trans ih
    unfold strtok
    rw [hd]
    rfl
  unfold apacheHandler acceptBrunsli
  dsimp only
  rw [acceptLoop, e1]
  dsimp only
  rw [e2]
  rfl

/-- **C60 is false of the code (Apache)**: a client that says that it does not want Brunsli, `image/x-j;q=0`, gets it. -/
theorem C60_apache_refused_false (bytes : List Nat) : ∃ h, wants h = false ∧ apacheHandler (some h) true (.file bytes) = .ok (.brunsli bytes []) := by
  refine ⟨mimeType ++ [';', 'q', '=', '0'], by decide +kernel, ?_⟩
  have : acceptBrunsli (some (mimeType ++ [';', 'q', '=', '0'])) = .ok true := by
    rw [C60_apache_recognised _ (by decide +kernel)]
    congr 1
  unfold apacheHandler
  rw [this]
  rfl

/-- **C60, letters**: upper case letters are taken for their lower case, everything else for itself. -/
theorem C60_letters : (∀ i < 26, lowerChar (Char.ofNat (65 + i)) = Char.ofNat (97 + i)) ∧ ∀ c : Char, (∀ i < 26, c ≠ Char.ofNat (65 + i)) → lowerChar c = c := by
  refine ⟨by decide, fun c hc => ?_⟩
  unfold lowerChar
  rw [if_neg]
  rintro ⟨h1, h2⟩
  have h1 : 65 ≤ c.toNat := h1
  have h2 : c.toNat ≤ 90 := h2
  refine hc (c.toNat - 65) (by omega) ?_
  rw [Nat.add_sub_cancel' h1, Char.ofNat_toNat]

/-- **C60, nginx, what is recognised**: only a header value that ends in the type, in upper or lower case, at its beginning or after a comma or a blank. -/
theorem C60_nginx_recognised (main : Bool) (h : List Char) : ngxOk main (some h) = true ↔
    main = true ∧ ∃ a w, h = a ++ w ∧ w.map lowerChar = mimeType ∧ (a = [] ∨ a.getLast? = some ',' ∨ a.getLast? = some ' ') := by
  unfold ngxOk
  cases main with
  | false => simp
  | true =>
    simp only [Bool.not_true, Bool.false_eq_true, if_false, true_and]
    by_cases hl : h.length < mimeType.length
    · rw [if_pos hl]
      refine ⟨fun h => (nomatch h), ?_⟩
      rintro ⟨a, w, rfl, hw, -⟩
      have := congrArg List.length hw
      rw [List.length_map] at this
      rw [List.length_append] at hl
      omega
    · rw [if_neg hl]
      exact ngxAccept_iff h

theorem mem_mime {w : List Char} (hw : w.map lowerChar = mimeType) {c : Char} (hc : c ∈ w) : lowerChar c ∈ mimeType := hw ▸ List.mem_map_of_mem hc

/-- A value that is the type in upper or lower case is one element that names it. -/
theorem mime_plain {w : List Char} (hw : w.map lowerChar = mimeType) : ',' ∉ w ∧ ';' ∉ w ∧ namedType w = w := by
  have h1 : ∀ c : Char, lowerChar c ∉ mimeType → c ∉ w := fun c h hc => h (mem_mime hw hc)
  have h2 : ';' ∉ w := h1 _ (by decide)
  refine ⟨h1 _ (by decide), h2, ?_⟩
  unfold namedType
  have e : w.takeWhile (· != ';') = w := by
    rcases (cut ';' w).2 with ⟨h, -⟩ | ⟨r, -, h⟩
    · exact h.symm
    · exact absurd (h ▸ by simp) h2
  rw [e, List.filter_eq_self]
  intro c hc
  have h3 : ∀ x : Char, lowerChar x ∉ mimeType → (c == x) = false := fun x hx => by
    rw [beq_eq_false_iff_ne]
    rintro rfl
    exact h1 _ hx hc
  unfold isSpaceChar
  rw [h3 ' ' (by decide), h3 '\t' (by decide), h3 '\n' (by decide), h3 '\r' (by decide), h3 '\x0b' (by decide), h3 '\x0c' (by decide)]
  rfl

theorem listElements_last {w : List Char} (hw : ',' ∉ w) : ∀ (n : Nat) (a : List Char), a.length ≤ n → w ∈ listElements (a ++ ',' :: w)
  | n, a, hn => by
    obtain ⟨h1, h2⟩ := cut ',' a
    rcases h2 with ⟨h2, -⟩ | ⟨r, -, h2⟩
    · rw [h2, listElements_first h1, listElements_single hw]
      simp
    · have hlen := congrArg List.length h2
      rw [List.length_append, List.length_cons] at hlen
      obtain ⟨m, rfl⟩ : ∃ m, n = m + 1 := ⟨n - 1, by omega⟩
      rw [h2, List.append_assoc, List.cons_append, listElements_first h1]
      exact List.mem_cons_of_mem _ (listElements_last hw m r (by omega))

theorem wants_of_element {h w : List Char} (hm : w ∈ listElements h) (hw : w.map lowerChar = mimeType) : wants h = true := by
  obtain ⟨-, h2, h3⟩ := mime_plain hw
  unfold wants
  rw [List.any_eq_true]
  refine ⟨w, hm, ?_⟩
  rw [h3, hw, show w.splitOn ';' = [w] from List.splitOnP_eq_singleton fun x hx => by rw [beq_eq_false_iff_ne]; exact fun e => h2 (e ▸ hx)]
  rfl

/-- **C60, nginx**: a client whose header value is recognised after a comma or at the beginning wants Brunsli. -/
theorem C60_nginx_partial (a w : List Char) (hw : w.map lowerChar = mimeType) (ha : a = [] ∨ a.getLast? = some ',') :
    ngxOk true (some (a ++ w)) = true ∧ wants (a ++ w) = true := by
  refine ⟨(C60_nginx_recognised true _).mpr ⟨rfl, a, w, rfl, hw, ha.imp id .inl⟩, ?_⟩
  obtain ⟨h1, -, -⟩ := mime_plain hw
  refine wants_of_element (w := w) ?_ hw
  rcases ha with rfl | ha
  · rw [List.nil_append, listElements_single h1]
    simp
  · obtain ⟨b, rfl⟩ := List.getLast?_eq_some_iff.mp ha
    rw [List.append_assoc]
    exact listElements_last h1 _ b (Nat.le_refl _)

/-- **C60, nginx, what is sent**: exactly in these cases the file beside the requested one. -/
theorem C60_nginx_sent (conf : NgxConf) (beside : Beside) (r : NgxRequest) (bytes : List Nat) :
    (∃ varies, ngxHandler conf true beside r = .brunsli bytes varies) ↔
      r.fetches = true ∧ r.slash = false ∧ beside = .file bytes ∧ (conf.enable = .always ∨ (conf.enable = .on ∧ ngxOk r.main r.accept = true)) := by
  obtain ⟨fetches, slash, main, accept⟩ := r
  obtain ⟨enable, vary⟩ := conf
  unfold ngxHandler
  dsimp only
  generalize ngxOk main accept = ok
  cases fetches <;> cases slash <;> cases enable <;> cases vary <;> cases ok <;> cases beside <;> simp

/-- **C60 is false of the code (nginx)**: a client that wants Brunsli does not get it unless it names it last. -/
theorem C60_nginx_missed_false (conf : NgxConf) (hc : conf.enable = .on) (rest : List Char) (hr : ∀ a w, rest = a ++ w → w.map lowerChar ≠ mimeType) (works : Bool) (beside : Beside) :
    wants (mimeType ++ ',' :: rest) = true ∧ ∀ bytes varies, ngxHandler conf works beside ⟨true, false, true, some (mimeType ++ ',' :: rest)⟩ ≠ .brunsli bytes varies := by
  constructor
  · refine wants_of_element (w := mimeType) ?_ lowerChar_mime
    rw [listElements_first (by decide)]
    simp
  · intro bytes varies h
    have hok : ngxOk true (some (mimeType ++ ',' :: rest)) = false := by
      rw [Bool.eq_false_iff]
      intro h
      obtain ⟨-, a, w, e, hw, -⟩ := (C60_nginx_recognised true _).mp h
      obtain ⟨h1, -, -⟩ := mime_plain hw
      rcases List.append_eq_append_iff.mp e with ⟨c, -, h2⟩ | ⟨c, -, h2⟩
      · cases c with
        | nil =>
          rw [List.nil_append] at h2
          exact h1 (by rw [← h2]; simp)
        | cons x c =>
          rw [List.cons_append, List.cons.injEq] at h2
          exact hr c w h2.2 hw
      · exact h1 (by rw [h2]; simp)
    cases works with
    | true =>
      obtain ⟨-, -, -, h1⟩ := (C60_nginx_sent conf beside _ bytes).mp ⟨varies, h⟩
      rcases h1 with h1 | ⟨-, h1⟩
      · rw [hc] at h1; cases h1
      · rw [hok] at h1; cases h1
    | false =>
      unfold ngxHandler at h
      simp only [hc, hok] at h
      cases hv : conf.gzipVary <;> simp [hv] at h

example : ∀ a w : List Char, ['*', '/', '*'] = a ++ w → w.map lowerChar ≠ mimeType := by
  intro a w h hw
  have h1 := congrArg List.length h
  have h2 := congrArg List.length hw
  rw [List.length_append] at h1
  rw [List.length_map] at h2
  have h3 : mimeType.length = 9 := rfl
  simp only [List.length_cons, List.length_nil] at h1
  omega

/-! ## C61 -/

/-- The headers of a request, by name. -/
abbrev Headers := String → Option (List Char)

/-- A cache may answer a request for the same URI with a stored answer to another request if the headers that the stored answer names in `Vary` are the same (RFC 9111, 4.1). -/
def Answer.Reusable (a : Answer) (stored now : Headers) : Prop :=
  match a with
  | .declined vs => ∀ n ∈ vs, stored n = now n
  | .brunsli _ vs => ∀ n ∈ vs, stored n = now n
  | .failed => False

/-- What a request can be answered with behind a shared cache, after the requests `before`: by the server, or with what the server answered to one of them. -/
def Behind (server : Headers → Answer) (before : List Headers) (now : Headers) (a : Answer) : Prop :=
  a = server now ∨ ∃ r ∈ before, a = server r ∧ a.Reusable r now

/-- The nginx module for GET requests of a file. -/
def ngxServer (conf : NgxConf) (beside : Beside) (h : Headers) : Answer := ngxHandler conf true beside ⟨true, false, true, h "Accept"⟩

/-- The Apache module. -/
def apacheServer (beside : Beside) (h : Headers) : Run Answer := apacheHandler (h "Accept") true beside

/-- Headers with two of these. -/
def headersWith (accept encoding : List Char) : Headers := fun n => if n = "Accept" then some accept else if n = "Accept-Encoding" then some encoding else none

/-- **C61, nginx, alone**: without a cache Brunsli is sent only to clients that are recognised, unless the module is configured to always send it; behind a cache it is so, if
`gzip_vary` is on and clients with the same `Accept-Encoding` have the same `Accept`.  Missing: other clients, for which it is false (`C61_nginx_false`). -/
theorem C61_nginx_partial (conf : NgxConf) (hc : conf.enable = .on) (hv : conf.gzipVary = true) (beside : Beside) (before : List Headers) (now : Headers)
    (hsame : ∀ r ∈ before, r "Accept-Encoding" = now "Accept-Encoding" → r "Accept" = now "Accept") (bytes : List Nat) (varies : List String)
    (h : Behind (ngxServer conf beside) before now (.brunsli bytes varies)) : ngxOk true (now "Accept") = true := by
  have key : ∀ r : Headers, Answer.brunsli bytes varies = ngxServer conf beside r → ngxOk true (r "Accept") = true ∧ varies = ["Accept-Encoding"] := by
    intro r hr
    obtain ⟨-, -, hb, h1⟩ := (C60_nginx_sent conf beside _ bytes).mp ⟨varies, hr.symm⟩
    have h2 : ngxOk true (r "Accept") = true := by
      rcases h1 with h1 | ⟨-, h1⟩
      · rw [hc] at h1; cases h1
      · exact h1
    refine ⟨h2, ?_⟩
    unfold ngxServer ngxHandler at hr
    simp [hc, h2, hb, hv, ngxVaries] at hr
    exact hr
  rcases h with h | ⟨r, hr, h1, h2⟩
  · exact (key now h).1
  · obtain ⟨h3, rfl⟩ := key r h1
    rw [← hsame r hr (h2 "Accept-Encoding" (by simp))]
    exact h3

/-- Two clients with different encodings. -/
example : ∀ r ∈ [headersWith mimeType ['b', 'r']], r "Accept-Encoding" = headersWith ['*'] ['g', 'z', 'i', 'p'] "Accept-Encoding" → r "Accept" = headersWith ['*'] ['g', 'z', 'i', 'p'] "Accept" := by
  decide +kernel

/-- **C61 is false of the code (nginx)**: what is sent depends on `Accept`, but `Vary` names at most `Accept-Encoding`.  After a client that accepts Brunsli, any other client of the same cache
with the same `Accept-Encoding` can be given Brunsli. -/
theorem C61_nginx_false (conf : NgxConf) (hc : conf.enable = .on) (bytes : List Nat) (accept encoding : List Char) :
    ∃ before varies, Behind (ngxServer conf (.file bytes)) before (headersWith accept encoding) (.brunsli bytes varies) := by
  have hok : ngxOk true (some mimeType) = true := by decide +kernel
  refine ⟨[headersWith mimeType encoding], ngxVaries conf, .inr ⟨headersWith mimeType encoding, List.mem_singleton_self _, ?_, ?_⟩⟩
  · unfold ngxServer ngxHandler
    simp [headersWith, hok, hc]
  · intro n hn
    have : n = "Accept-Encoding" := by
      unfold ngxVaries at hn
      split at hn
      · simpa using hn
      · simp at hn
    subst this
    rfl

/-- **C61 is false of the code (Apache)**: answers do not name any header in `Vary`. -/
theorem C61_apache_false (bytes : List Nat) (accept encoding : List Char) : ∃ stored a, apacheServer (.file bytes) stored = .ok a ∧ a = .brunsli bytes [] ∧
    a.Reusable stored (headersWith accept encoding) := by
  refine ⟨headersWith mimeType encoding, .brunsli bytes [], ?_, rfl, fun n hn => by simp at hn⟩
  have h : acceptBrunsli (some mimeType) = .ok true := by
    rw [C60_apache_recognised _ (by decide +kernel)]
    congr 1
  unfold apacheServer apacheHandler
  rw [show headersWith mimeType encoding "Accept" = some mimeType from rfl, h]
  rfl

/-- A client that does not want Brunsli. -/
example : wants ['i', 'm', 'a', 'g', 'e', '/', 'p', 'n', 'g'] = false ∧ ngxOk true (some ['i', 'm', 'a', 'g', 'e', '/', 'p', 'n', 'g']) = false := by decide +kernel

end Brunsli

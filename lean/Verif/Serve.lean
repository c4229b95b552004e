import Verif.JMode
/-!
# The server modules

Modelled: contrib/mod_brunsli/mod_brunsli.c (Apache) and contrib/ngx_brunsli/src/ngx_http_brunsli_static_module.c (nginx): which requests are answered with the
Brunsli file beside the requested one.  `apr_strtok`, `apr_collapse_spaces`, `ngx_strcasestrn` and `ngx_strncasecmp` belong to these servers and are not in /repo; they are modelled
as they are published.  Header values are lists of characters without the terminating NUL; neither server lets a NUL into a header value.
-/

namespace Brunsli

/-- The media type of Brunsli files, `image/x-j` (mod_brunsli.c:9, ngx_http_brunsli_static_module.c:29). -/
def mimeType : List Char := ['i', 'm', 'a', 'g', 'e', '/', 'x', '-', 'j']

/-! ## Apache -/

/-- `apr_strtok` with one separator: the token and what follows the separator behind it. -/
def strtok (sep : Char) (s : List Char) : Option (List Char × List Char) :=
  let t := s.dropWhile (· == sep)
  if t = [] then none else some (t.takeWhile (· != sep), (t.dropWhile (· != sep)).drop 1)

/-- `apr_isspace`. -/
def isSpaceChar (c : Char) : Bool := c == ' ' || c == '\t' || c == '\n' || c == '\r' || c == '\x0b' || c == '\x0c'

/-- `apr_collapse_spaces`; the argument is a pointer that may be null. -/
def collapseSpaces : Option (List Char) → Run (List Char)
  | none => .ub
  | some s => .ok (s.filter fun c => !isSpaceChar c)

/-- The loop of `accept_brunsli` (mod_brunsli.c:17-25).  Each round takes a character at least, so that `fuel` above the length suffices. -/
def acceptLoop : (fuel : Nat) → List Char → Run Bool
  | 0, _ => .fail
  | fuel + 1, s =>
    match strtok ',' s with
    | none => .ok false
    | some (token, rest) =>
      (collapseSpaces ((strtok ';' token).map Prod.fst)).bind fun t => if t = mimeType then .ok true else acceptLoop fuel rest

/-- `accept_brunsli` (mod_brunsli.c:11-27). -/
def acceptBrunsli : Option (List Char) → Run Bool
  | none => .ok false
  | some s => acceptLoop (s.length + 1) s

/-- What `path.j` is. -/
inductive Beside where
  | missing
  /-- It cannot be opened or examined. -/
  | denied
  | directory
  | file (bytes : List Nat)
  /-- A device, a pipe. -/
  | special
deriving DecidableEq, Repr

/-- The answer to a request: left to other modules, refused, or these bytes as `image/x-j`.  `varies` are the names of the request headers in the header `Vary` of the answer. -/
inductive Answer where
  | declined (varies : List String)
  | failed
  | brunsli (bytes : List Nat) (varies : List String)
deriving DecidableEq, Repr

/-- `brunsli_handler` (mod_brunsli.c:29-55).  `translated` tells whether `ap_core_translate` found a file name.  What is neither missing nor a directory passes (line 46);
a device is read like a file, here with the contents `[]`. -/
def apacheHandler (accept : Option (List Char)) (translated : Bool) (beside : Beside) : Run Answer :=
  (acceptBrunsli accept).bind fun ok =>
    if !ok then .ok (.declined [])
    else if !translated then .ok (.declined [])
    else
      match beside with
      | .missing => .ok (.declined [])
      | .denied => .ok (.declined [])
      | .directory => .ok (.declined [])
      | .file bytes => .ok (.brunsli bytes [])
      | .special => .ok (.brunsli [] [])

/-! ## nginx -/

/-- `ngx_tolower`. -/
def lowerChar (c : Char) : Char := if 'A' ≤ c ∧ c ≤ 'Z' then Char.ofNat (c.toNat + 32) else c

/-- `ngx_strncasecmp` (of two strings, at most `n` characters) returns 0.  The ends of the strings are NULs, which are compared, too. -/
def caseEqual : Nat → List Char → List Char → Bool
  | 0, _, _ => true
  | _ + 1, [], [] => true
  | n + 1, a :: s, b :: t => lowerChar a == lowerChar b && caseEqual n s t
  | _ + 1, [], _ :: _ => false
  | _ + 1, _ :: _, [] => false

/-- `ngx_strcasestrn(s, c :: pat, n)`: the number of characters before the first place where `c` is followed by a string that agrees with `pat` in `n` characters.
The comment of nginx says that `n` must be the length of the second argument less one, which is the length of `pat`. -/
def strcasestrn (c : Char) (pat : List Char) (n : Nat) : List Char → Option Nat
  | [] => none
  | x :: s => if lowerChar x == lowerChar c && caseEqual n s pat then some 0 else (strcasestrn c pat n s).map (· + 1)

/-- `ngx_http_brunsli_accept` (ngx_http_brunsli_static_module.c:295-313); the length passed is that of the whole media type (lines 298-299). -/
def ngxAccept (s : List Char) : Bool :=
  match strcasestrn 'i' mimeType.tail mimeType.length s with
  | none => false
  | some p =>
    if p = 0 ∨ s[p - 1]? = some ',' ∨ s[p]? = some ';' ∨ s[p - 1]? = some ' ' then
      if p + mimeType.length = s.length ∨ s[p + mimeType.length]? = some ',' ∨ s[p + mimeType.length]? = some ';' ∨ s[p + mimeType.length]? = some ' ' then true
      else false
    else false

/-- `ngx_http_brunsli_ok` (ngx_http_brunsli_static_module.c:269-293); `main` tells that the request is not a subrequest. -/
def ngxOk (main : Bool) (accept : Option (List Char)) : Bool :=
  if !main then false
  else
    match accept with
    | none => false
    | some s => if s.length < mimeType.length then false else ngxAccept s

/-- The values of the directive `brunsli_static` (lines 11-13, 31-35). -/
inductive NgxEnable where
  | off | on | always
deriving DecidableEq, Repr

/-- The configuration: of this module and the directive `gzip_vary`. -/
structure NgxConf where
  enable : NgxEnable
  gzipVary : Bool

/-- What the handler looks at in a request: whether the method is GET or HEAD, whether the URI ends in a slash. -/
structure NgxRequest where
  fetches : Bool
  slash : Bool
  main : Bool
  accept : Option (List Char)

/-- What `r->gzip_vary` does, later: nginx sends `Vary: Accept-Encoding` if the directive `gzip_vary` is on. -/
def ngxVaries (conf : NgxConf) : List String := if conf.gzipVary then ["Accept-Encoding"] else []

/-- `ngx_http_brunsli_static_handler` (ngx_http_brunsli_static_module.c:76-267); `works` tells that the calls of nginx that need memory succeed. -/
def ngxHandler (conf : NgxConf) (works : Bool) (beside : Beside) (r : NgxRequest) : Answer :=
  if !r.fetches then .declined []
  else if r.slash then .declined []
  else if conf.enable = .off then .declined []
  else
    let rc := if conf.enable = .on then ngxOk r.main r.accept else true
    if !conf.gzipVary && !rc then .declined []
    else if !works then .failed
    else
      match beside with
      | .missing => .declined []
      | .denied => .declined []
      | b =>
        let varies := if conf.enable = .on then ngxVaries conf else []
        if conf.enable = .on && !rc then .declined varies
        else
          match b with
          | .directory => .declined varies
          | .file bytes => .brunsli bytes varies
          | _ => .failed

/-! ## What a header value says -/

/-- The elements of a list separated by commas (RFC 9110, 5.6.1). -/
def listElements (h : List Char) : List (List Char) := h.splitOn ','

/-- The type named by an element: what comes before the parameters, without blanks. -/
def namedType (e : List Char) : List Char := (e.takeWhile (· != ';')).filter fun c => !isSpaceChar c

/-! ## Exactly what is recognised -/

theorem listElements_first {t : List Char} (ht : ',' ∉ t) (r : List Char) : listElements (t ++ ',' :: r) = t :: listElements r :=
  List.splitOnP_append_cons_of_forall_mem (fun x hx => by rw [beq_eq_false_iff_ne]; exact fun e => ht (e ▸ hx)) ',' (by simp) r

theorem listElements_single {t : List Char} (ht : ',' ∉ t) : listElements t = [t] :=
  List.splitOnP_eq_singleton fun x hx => by rw [beq_eq_false_iff_ne]; exact fun e => ht (e ▸ hx)

theorem cut (sep : Char) : ∀ s : List Char, sep ∉ s.takeWhile (· != sep) ∧
    ((s = s.takeWhile (· != sep) ∧ s.dropWhile (· != sep) = []) ∨ ∃ r, s.dropWhile (· != sep) = sep :: r ∧ s = s.takeWhile (· != sep) ++ sep :: r)
  | [] => by simp
  | c :: s => by
    by_cases hc : c = sep
    · subst hc
      simp
    · have hb : (c != sep) = true := by simp [hc]
      rw [List.takeWhile_cons_of_pos (p := (· != sep)) hb, List.dropWhile_cons_of_pos (p := (· != sep)) hb]
      obtain ⟨h1, h2⟩ := cut sep s
      refine ⟨by simp only [List.mem_cons, not_or]; exact ⟨fun e => hc e.symm, h1⟩, ?_⟩
      rcases h2 with ⟨h2, h3⟩ | ⟨r, h2, h3⟩
      · exact .inl ⟨congrArg (c :: ·) h2, h3⟩
      · exact .inr ⟨r, h2, congrArg (c :: ·) h3⟩

/-- No element begins with a semicolon. -/
def NoBareParameters (h : List Char) : Prop := ∀ e ∈ listElements h, e.head? ≠ some ';'

theorem acceptLoop_spec : ∀ (fuel : Nat) (s : List Char), s.length < fuel → NoBareParameters s →
    acceptLoop fuel s = .ok (decide (∃ e ∈ listElements s, namedType e = mimeType)) := by
  intro fuel
  induction fuel with
  | zero => intro s h; omega
  | succ fuel ih =>
    intro s
    induction s with
    | nil => intro _ _; rfl
    | cons c s ihs =>
      intro hf hn
      by_cases hc : c = ','
      · subst hc
        have e : listElements (',' :: s) = [] :: listElements s := listElements_first (t := []) (by simp) s
        have hl : acceptLoop (fuel + 1) (',' :: s) = acceptLoop (fuel + 1) s := by
          rw [acceptLoop, acceptLoop]
          have : strtok ',' (',' :: s) = strtok ',' s := by simp [strtok]
          rw [this]
        rw [hl, ihs (by simp only [List.length_cons] at hf; omega) (fun x hx => hn x (by rw [e]; exact List.mem_cons_of_mem _ hx)), e]
        congr 2
        simp only [List.mem_cons, exists_eq_or_imp, eq_iff_iff]
        refine ⟨.inr, fun h => h.resolve_left ?_⟩
        decide
      · generalize ht : (c :: s).takeWhile (· != ',') = t
        have hb : (c != ',') = true := by simp [hc]
        have htc : t = c :: s.takeWhile (· != ',') := by rw [← ht]; exact List.takeWhile_cons_of_pos (p := (· != ',')) hb
        obtain ⟨h1, h2⟩ := cut ',' (c :: s)
        rw [ht] at h1 h2
        have htok : strtok ',' (c :: s) = some (t, ((c :: s).dropWhile (· != ',')).drop 1) := by
          unfold strtok
          have : (c :: s).dropWhile (· == ',') = c :: s := List.dropWhile_cons_of_neg (by simp [hc])
          rw [this]
          dsimp only
          rw [if_neg (by simp), ht]
        have hmem : t ∈ listElements (c :: s) := by
          rcases h2 with ⟨h2, -⟩ | ⟨r, -, h2⟩
          · rw [h2, listElements_single h1]; simp
          · rw [h2, listElements_first h1]; simp
        have hsemi : c ≠ ';' := fun e => hn t hmem (by rw [htc, e]; rfl)
        have hin : strtok ';' t = some (t.takeWhile (· != ';'), (t.dropWhile (· != ';')).drop 1) := by
          unfold strtok
          have : t.dropWhile (· == ';') = t := by rw [htc]; exact List.dropWhile_cons_of_neg (by simp [hsemi])
          rw [this]
          dsimp only
          rw [if_neg (by rw [htc]; simp)]
        rw [acceptLoop, htok]
        dsimp only
        rw [hin, Option.map_some, collapseSpaces, Run.bind]
        show (if namedType t = mimeType then _ else _) = _
        rcases h2 with ⟨h2, h3⟩ | ⟨r, h3, h2⟩
        · rw [h3]
          have hl : listElements (c :: s) = [t] := by rw [h2, listElements_single h1]
          by_cases hm : namedType t = mimeType
          · rw [if_pos hm, hl]
            simp [hm]
          · rw [if_neg hm, hl, ih _ (by simp only [List.drop_nil, List.length_nil, List.length_cons] at hf ⊢; omega) (fun e he => by
              simp [listElements] at he
              rw [he]
              simp)]
            simp [hm]
            decide
        · rw [h3]
          have hl : listElements (c :: s) = t :: listElements r := by rw [h2, listElements_first h1]
          by_cases hm : namedType t = mimeType
          · rw [if_pos hm, hl]
            simp [hm]
          · have hlen := congrArg List.length h2
            rw [List.length_append] at hlen
            rw [if_neg hm, hl]
            show acceptLoop fuel r = _
            rw [ih r (by simp only [List.length_cons] at hf hlen; omega) (fun e he => hn e (by rw [hl]; exact List.mem_cons_of_mem _ he))]
            congr 2
            simp [hm]

theorem lowerChar_mime : mimeType.map lowerChar = mimeType := by decide

theorem caseEqual_iff : ∀ (n : Nat) (s t : List Char), t.length < n → (caseEqual n s t = true ↔ s.map lowerChar = t.map lowerChar)
  | 0, _, _, h => absurd h (Nat.not_lt_zero _)
  | _ + 1, [], [], _ => by simp [caseEqual]
  | n + 1, a :: s, b :: t, h => by
    simp only [List.length_cons] at h
    simp only [caseEqual, Bool.and_eq_true, beq_iff_eq, List.map_cons, List.cons.injEq]
    rw [caseEqual_iff n s t (by omega)]
  | _ + 1, [], _ :: _, _ => by simp [caseEqual]
  | _ + 1, _ :: _, [], _ => by simp [caseEqual]

/-- With the length of the whole pattern the search finds it only at the end. -/
theorem strcasestrn_iff (s : List Char) (p : Nat) :
    strcasestrn 'i' mimeType.tail mimeType.length s = some p ↔ ∃ a w, s = a ++ w ∧ a.length = p ∧ w.map lowerChar = mimeType := by
  induction s generalizing p with
  | nil =>
    refine ⟨fun h => (nomatch h), ?_⟩
    rintro ⟨a, w, h, -, hw⟩
    obtain ⟨rfl, rfl⟩ := List.append_eq_nil_iff.mp h.symm
    cases hw
  | cons x s ih =>
    have hkey : (lowerChar x == lowerChar 'i' && caseEqual mimeType.length s mimeType.tail) = true ↔ (x :: s).map lowerChar = mimeType := by
      rw [Bool.and_eq_true, beq_iff_eq, caseEqual_iff _ _ _ (by decide)]
      conv_rhs => rw [← lowerChar_mime]
      rw [show mimeType = 'i' :: mimeType.tail from rfl, List.map_cons, List.map_cons, List.cons.injEq]
      rfl
    rw [strcasestrn]
    by_cases h : (lowerChar x == lowerChar 'i' && caseEqual mimeType.length s mimeType.tail) = true
    · rw [if_pos h]
      have hw := hkey.mp h
      constructor
      · intro e
        cases e
        exact ⟨[], x :: s, rfl, rfl, hw⟩
      · rintro ⟨a, w, e, rfl, hw'⟩
        have h1 := congrArg List.length hw
        have h2 := congrArg List.length hw'
        have h3 := congrArg List.length e
        simp only [List.length_map, List.length_append] at h1 h2 h3
        rw [show a.length = 0 by omega]
    · rw [if_neg h, Option.map_eq_some_iff]
      constructor
      · rintro ⟨q, hq, rfl⟩
        obtain ⟨a, w, rfl, rfl, hw⟩ := (ih q).mp hq
        exact ⟨x :: a, w, rfl, rfl, hw⟩
      · rintro ⟨a, w, e, rfl, hw⟩
        cases a with
        | nil =>
          rw [List.nil_append] at e
          rw [← e] at hw
          exact absurd (hkey.mpr hw) h
        | cons y a =>
          rw [List.cons_append, List.cons.injEq] at e
          exact ⟨a.length, (ih _).mpr ⟨a, w, e.2, rfl, hw⟩, rfl⟩

theorem ngxAccept_iff (s : List Char) : ngxAccept s = true ↔
    ∃ a w, s = a ++ w ∧ w.map lowerChar = mimeType ∧ (a = [] ∨ a.getLast? = some ',' ∨ a.getLast? = some ' ') := by
  have hlast : ∀ (a w : List Char), a ≠ [] → (a ++ w)[a.length - 1]? = a.getLast? := fun a w ha => by
    have := List.length_pos_iff.mpr ha
    rw [List.getElem?_append_left (by omega), List.getLast?_eq_getElem?]
  have hsemi : ∀ (a w : List Char), w.map lowerChar = mimeType → (a ++ w)[a.length]? ≠ some ';' := fun a w hw e => by
    rw [List.getElem?_append_right (Nat.le_refl _), Nat.sub_self] at e
    have := congrArg (·[0]?) hw
    rw [List.getElem?_map, e] at this
    revert this
    decide
  unfold ngxAccept
  constructor
  · intro h
    cases hp : strcasestrn 'i' mimeType.tail mimeType.length s with
    | none => rw [hp] at h; cases h
    | some p =>
      rw [hp] at h
      obtain ⟨a, w, rfl, rfl, hw⟩ := (strcasestrn_iff s p).mp hp
      dsimp only at h
      refine ⟨a, w, rfl, hw, ?_⟩
      by_cases ha : a = []
      · exact .inl ha
      · have hpos := List.length_pos_iff.mpr ha
        split at h
        · rename_i h1
          rw [hlast a w ha] at h1
          rcases h1 with h1 | h1 | h1 | h1
          · omega
          · exact .inr (.inl h1)
          · exact absurd h1 (hsemi a w hw)
          · exact .inr (.inr h1)
        · cases h
  · rintro ⟨a, w, rfl, hw, ha⟩
    rw [(strcasestrn_iff _ a.length).mpr ⟨a, w, rfl, rfl, hw⟩]
    dsimp only
    have hl := congrArg List.length hw
    rw [List.length_map] at hl
    rw [if_pos, if_pos (.inl (by rw [List.length_append]; omega))]
    by_cases h0 : a = []
    · left; rw [h0]; rfl
    · rw [hlast a w h0]
      rcases ha with ha | ha | ha
      · exact absurd ha h0
      · exact .inr (.inl ha)
      · exact .inr (.inr (.inr ha))

end Brunsli

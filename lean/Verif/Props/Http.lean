import Verif.Proof.HttpTotal
import Verif.Proof.SliceLaws

/-!
# C64: the HTTP parser of `benches/http.rs` accepts exactly the requests
-/

namespace Verif

open Http

variable {S : Strm} [DecidableEq S.Tok] [DecidableEq S.Rng] {R : RangeOps S} {B : Octets S} {wt : S.Tok → Nat}

/-- The bytes of a request and of its headers. -/
abbrev Http.read (B : Octets S) (r : Request S.Rng × List (Header S.Rng)) : Request (List UInt8) × List (Header (List UInt8)) :=
  (r.1.map B.slice, r.2.map (Header.map B.slice))

/-- **C64.**  `parse_http_request` succeeds on complete input exactly if a request comes first; it returns its parts and leaves
the input right after it. -/
theorem C64_request (hS : S.Lawful) (hR : R.Lawful (toks B) wt) (hE : S.EndsOnly) {i : S.Input} (hi : S.isPartial i = false)
    (v : Request S.Rng × List (Header S.Rng)) (k : S.Input) :
    (request R B).parse i = .ok v k ↔ ∃ w, S.Reads i (w.map B.tok) k ∧ IsRequest w (Http.read B v) := by
  have h := known_request hS hR hE
  have hc : Coherent (request R B) := Coherent.ofMode hS h.rep.moves.run
  have hx := C63_describes h.is
  rw [(C41_parse _ hc i).1]
  constructor
  · rintro ⟨c, hv⟩
    have hs : (request R B).shape i = .ok c v k := by simp only [Parser.shape, hv]; rfl
    obtain ⟨w, h1, _, h2⟩ := (hx i c v k hi).1 hs
    refine ⟨w.map B.byte, ?_, h2⟩
    simpa [Function.comp_def, B.tok_byte] using h1
  · rintro ⟨w, h1, h2⟩
    refine ⟨_, of_shape_ok ((hx i _ v k hi).2 ⟨w.map B.tok, h1, rfl, ?_⟩)⟩
    simpa [Texts.pull, Function.comp_def, B.byte_tok] using h2

/-- **C64.**  The parser always comes back, with a request or an error, whatever the input is and whether it is complete or not. -/
theorem C64_total (hS : S.Lawful) (hR : R.Lawful (toks B) wt) (hE : S.EndsOnly) (i : S.Input) (a : Abort) :
    (request R B).parse i ≠ .abort a :=
  (request_calm hS hR hE).parse (Coherent.ofMode hS (known_request hS hR hE).rep.moves.run) i a

private theorem request_nonempty {w : List UInt8} {r : Request (List UInt8) × List (Header (List UInt8))} (h : IsRequest w r) : w ≠ [] := by
  obtain ⟨l, e, hs, e', rfl, _, _, _, rfl | rfl⟩ := h <;> simp

omit [DecidableEq S.Tok] [DecidableEq S.Rng] in
private theorem split_reads {us ts : List S.Tok} {i k : S.Input} (h : S.Reads i (us ++ ts) k) :
    ∃ j, S.Reads i us j ∧ S.Reads j ts k := by
  induction us generalizing i with
  | nil => exact ⟨i, .nil i, h⟩
  | cons u us ih =>
    obtain ⟨j, h1, h2⟩ := Strm.reads_cons.1 h
    obtain ⟨l, h3, h4⟩ := ih h2
    exact ⟨l, .cons h1 h3, h4⟩

/-- **C64.**  The loop of the benchmark ends without a panic exactly if the whole input consists of requests, and has then seen
each of them. -/
theorem C64_requests (hS : S.Lawful) (hR : R.Lawful (toks B) wt) (hE : S.EndsOnly) {i : S.Input} (hi : S.isPartial i = false)
    {fuel : Nat} (hf : S.size i < fuel) (vs : List (Request S.Rng × List (Header S.Rng))) :
    requests R B fuel i = some vs ↔
      ∃ w k, S.Reads i (w.map B.tok) k ∧ S.ahead k = none ∧ Each IsRequest w (vs.map (Http.read B)) := by
  induction fuel generalizing i vs with
  | zero => omega
  | succ fuel ih =>
    rw [requests]
    constructor
    · intro h
      cases hu : (S.uncons i).1 with
      | error e =>
        rw [hu] at h
        cases h
        exact ⟨[], i, .nil i, by simp only [Strm.ahead, hu], .nil⟩
      | ok t =>
        rw [hu] at h
        dsimp only at h
        cases hp : (request R B).parse i with
        | ok v j =>
          rw [hp] at h
          obtain ⟨w, h1, h2⟩ := (C64_request hS hR hE hi v j).1 hp
          obtain ⟨us, h3, rfl⟩ := Option.map_eq_some_iff.1 h
          have := hS.reads_size h1
          have hn := request_nonempty h2
          have hl : 0 < w.length := List.length_pos_iff.2 hn
          obtain ⟨u, k, h4, h5, h6⟩ := (ih ((hS.reads_isPartial h1).trans hi) (by rw [List.length_map] at this; omega) us).1 h3
          exact ⟨w ++ u, k, by rw [List.map_append]; exact h1.trans h4, h5, .cons h2 h6⟩
        | _ => rw [hp] at h; cases h
    · rintro ⟨w, k, h1, h2, h3⟩
      generalize hx : vs.map (Http.read B) = xs at h3
      cases h3 with
      | nil =>
        cases List.map_eq_nil_iff.1 hx
        cases Strm.reads_nil.1 h1
        cases hu : (S.uncons i).1 with
        | error e => rfl
        | ok t => simp only [Strm.ahead, hu] at h2; cases h2
      | @cons w u v' vs' h4 h5 =>
        obtain ⟨v, us, rfl, rfl, rfl⟩ := List.map_eq_cons_iff.1 hx
        rw [List.map_append] at h1
        obtain ⟨j, h6, h7⟩ := split_reads h1
        have hn := request_nonempty h4
        have hl : 0 < w.length := List.length_pos_iff.2 hn
        have hsz := hS.reads_size h6
        have hu : ∃ t, S.ahead i = some t := by
          rw [ahead_reads h6]
          cases w with
          | nil => exact (hn rfl).elim
          | cons t ts => exact ⟨_, rfl⟩
        obtain ⟨t, hu⟩ := hu
        obtain ⟨l, hu⟩ := ahead_of_some hu
        rw [hu]
        dsimp only
        rw [(C64_request hS hR hE hi v j).2 ⟨w, h6, h4⟩]
        dsimp only
        rw [(ih ((hS.reads_isPartial h6).trans hi) (by rw [List.length_map] at hsz; omega) us).2 ⟨u, k, h7, h2, h5⟩]
        rfl

/-! ## On byte slices -/

/-- `&[u8]`. -/
abbrev Http.Slices := sliceS UInt8 1

/-- The bytes of `&[u8]`. -/
abbrev Http.plain : Octets Http.Slices := ⟨id, id, fun _ => rfl, fun _ => rfl, id, id, fun _ => rfl, fun _ => rfl⟩

private theorem plain_lawful : (sliceR UInt8 1).Lawful (toks plain) (fun _ => 1) := by
  have e : toks plain = id := by
    funext r
    exact List.map_id _
  rw [e]
  exact sliceR_lawful UInt8 1

example (text : List UInt8) (a : Abort) : (request (sliceR UInt8 1) plain).parse (⟨0, text⟩ : Slice UInt8) ≠ .abort a :=
  C64_total (S := Slices) (slice_lawful UInt8 1) plain_lawful (slice_endsOnly UInt8 1) _ a

/-- **C64** for `parse_http_request` on `&[u8]`: exactly the texts that begin with a request. -/
theorem C64_slice (text : List UInt8) (v : Request (List UInt8) × List (Header (List UInt8))) (k : Slice UInt8) :
    (request (sliceR UInt8 1) plain).parse (⟨0, text⟩ : Slice UInt8) = .ok v k ↔
      ∃ w, text = w ++ k.data ∧ k.ptr = w.length ∧ IsRequest w v := by
  have e : Http.read plain v = v := by
    have : Header.map (plain.slice) = id := by
      funext h
      simp [Header.map]
    obtain ⟨⟨a, b, c⟩, hs⟩ := v
    simp only [Http.read, this, List.map_id]
    rfl
  have h := C64_request (S := Slices) (B := plain) (slice_lawful UInt8 1) plain_lawful (slice_endsOnly UInt8 1)
    (i := (⟨0, text⟩ : Slice UInt8)) rfl v k
  refine h.trans ⟨?_, ?_⟩
  · rintro ⟨w, h1, h2⟩
    rw [show w.map plain.tok = w from List.map_id _] at h1
    obtain ⟨h3, h4⟩ := slice_reads.1 h1
    exact ⟨w, h3, by simpa using h4, e ▸ h2⟩
  · rintro ⟨w, h1, h2, h3⟩
    refine ⟨w, ?_, e.symm ▸ h3⟩
    rw [show w.map plain.tok = w from List.map_id _]
    exact slice_reads.2 ⟨h1, by simpa using h2⟩

private def ascii (s : String) : List UInt8 := s.toList.map fun c => c.toNat.toUInt8

private def sample := ascii "GET /a HTTP/1.1\r\nHost: b\r\nX: 1\r\n\t2\n\r\n"

-- the hypotheses of the theorems are met, and their conclusion is not trivial
example : (match (request (sliceR UInt8 1) plain).parse (⟨0, sample ++ [71]⟩ : Slice UInt8) with
    | .ok v k => decide (v.1.method = ascii "GET" ∧ v.1.uri = ascii "/a" ∧ v.1.version = ascii "1.1" ∧
        v.2.map (fun h => (h.name, h.value)) = [(ascii "Host", [ascii "b"]), (ascii "X", [ascii "1", ascii "2"])] ∧ k.data = [71])
    | _ => false) = true := by decide +kernel
private theorem some1 {f : UInt8 → Bool} {w : List UInt8} (h : (!w.isEmpty && w.all f) = true) : Some1 f w := by
  cases w with
  | nil => cases h
  | cons c w => exact ⟨by simp, by simpa using h⟩

example : IsRequest (ascii "GET /a HTTP/1.1\r\nHost: b\n\n") (⟨ascii "GET", ascii "/a", ascii "1.1"⟩, [⟨ascii "Host", [ascii "b"]⟩]) := by
  have hl : IsLine (ascii " b\n" ++ []) (ascii "b") :=
    ⟨[32], [10], by decide, some1 (by decide), some1 (by decide), fun c h => by cases h; rfl, .inr rfl⟩
  have hh : IsHeader (ascii "Host: b\n" ++ []) ⟨ascii "Host", [ascii "b"]⟩ :=
    ⟨ascii " b\n" ++ [] ++ [], by decide, some1 (by decide), .cons hl .nil, by simp⟩
  exact ⟨ascii "GET /a HTTP/1.1", [13, 10], ascii "Host: b\n" ++ [] ++ [], [10], by decide,
    ⟨[32], [32], by decide, some1 (by decide), some1 (by decide), some1 (by decide), some1 (by decide), some1 (by decide)⟩,
    .inl rfl, .cons hh .nil, .inr rfl⟩

/-- **C64**, deviation from RFC 7230: a header whose value follows the colon directly is rejected ... -/
theorem C64_tight_fails :
    ((request (sliceR UInt8 1) plain).parse (⟨0, ascii "GET / HTTP/1.1\r\nHost:b\r\n\r\n"⟩ : Slice UInt8) matches .ok _ _) = false := by
  decide +kernel

/-- ... and so is one with an empty value, ... -/
theorem C64_empty_value_fails :
    ((request (sliceR UInt8 1) plain).parse (⟨0, ascii "GET / HTTP/1.1\r\nHost: \r\n\r\n"⟩ : Slice UInt8) matches .ok _ _) = false := by
  decide +kernel

/-- ... while the target of a request may run over several lines. -/
theorem C64_uri_fails :
    (match (request (sliceR UInt8 1) plain).parse (⟨0, ascii "GET /\r\nHost:b HTTP/1.1\r\n\r\n"⟩ : Slice UInt8) with
    | .ok v _ => decide (v.1.uri = ascii "/\r\nHost:b" ∧ v.2.length = 0)
    | _ => false) = true := by
  decide +kernel

/-! ## The classes of bytes -/

private theorem all_bytes {P : UInt8 → Prop} (h : ∀ n : Fin 256, P (UInt8.ofFin n)) (c : UInt8) : P c := h c.toFin

/-- **C64.**  Names and methods consist of the characters RFC 2616 calls those of a token, and also of DEL. -/
theorem C64_token (c : UInt8) : Http.isToken c = true ↔ Http.TokenChar c ∨ c = 127 :=
  all_bytes (P := fun c => Http.isToken c = true ↔ Http.TokenChar c ∨ c = 127) (by decide +kernel) c

/-- **C64** fails for DEL, a control character: it is accepted in names. -/
theorem C64_del_fails : Http.isToken 127 = true ∧ ¬Http.TokenChar 127 := by decide

/-- **C64.**  The other classes of bytes. -/
theorem C64_classes (c : UInt8) :
    (Http.isHttpVersion c = true ↔ Http.letter c ∈ "0123456789.".toList) ∧
    (Http.isHorizontalSpace c = true ↔ Http.letter c = ' ' ∨ Http.letter c = '\t') ∧
    (Http.isSpace c = true ↔ Http.letter c = ' ') ∧
    (Http.isNotSpace c = true ↔ Http.letter c ≠ ' ') ∧
    (Http.isContent c = true ↔ Http.letter c ≠ '\r' ∧ Http.letter c ≠ '\n') :=
  all_bytes (P := fun c => (Http.isHttpVersion c = true ↔ Http.letter c ∈ "0123456789.".toList) ∧
    (Http.isHorizontalSpace c = true ↔ Http.letter c = ' ' ∨ Http.letter c = '\t') ∧
    (Http.isSpace c = true ↔ Http.letter c = ' ') ∧
    (Http.isNotSpace c = true ↔ Http.letter c ≠ ' ') ∧
    (Http.isContent c = true ↔ Http.letter c ≠ '\r' ∧ Http.letter c ≠ '\n')) (by decide +kernel) c

/-- **C64.**  The label of a request line. -/
theorem C64_label : Http.label.map Http.letter = "HTTP/".toList := by decide

end Verif

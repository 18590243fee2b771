{
 "claims": [
  {
   "property": "C01",
   "status": "proved",
   "theorems": [
    "Pasta.C01.local_roundtrip",
    "Pasta.C01.local_roundtrip_direct",
    "Pasta.C01.encrypt_outcome"
   ],
   "note": ""
  },
  {
   "property": "C02",
   "status": "proved",
   "theorems": [
    "Pasta.C02.verifyRaw_signRaw",
    "Pasta.C02.sign_outcome",
    "Pasta.C02.v4_sign_ok",
    "Pasta.C02.public_roundtrip",
    "Pasta.C02.public_roundtrip_direct"
   ],
   "note": "verifyRaw_signRaw is the core; public_roundtrip goes through the printed text."
  },
  {
   "property": "C03",
   "status": "proved",
   "theorems": [
    "Pasta.C03.localEncrypt_be64_iff",
    "Pasta.C03.v4_encrypt",
    "Pasta.C03.v3_encrypt",
    "Pasta.C03.v3_standard_iff",
    "Pasta.C03.v3_encrypt_standard",
    "Pasta.C03.v3_ctr_deviates",
    "Pasta.C03.decrypt_accepts_iff",
    "Pasta.C03.v4_decrypt",
    "Pasta.C03.v3_decrypt",
    "Pasta.C03.v3_decrypt_standard"
   ],
   "note": "V4: v4_encrypt, v4_decrypt. V3: v3_encrypt, v3_decrypt for the code's 64-bit counter; v3_standard_iff says exactly when the text is the standard one, v3_encrypt_standard and v3_decrypt_standard cover messages on which the counter does not wrap, v3_ctr_deviates is a witness of the deviation."
  },
  {
   "property": "C04",
   "status": "proved",
   "theorems": [
    "Pasta.C04.sign_spec",
    "Pasta.C04.verify_spec",
    "Pasta.C04.verify_accepts_iff"
   ],
   "note": ""
  },
  {
   "property": "C05",
   "status": "proved",
   "theorems": [
    "Pasta.C05.parse_iff",
    "Pasta.C05.accepts_iff",
    "Pasta.C05.grammar_unambiguous"
   ],
   "note": ""
  },
  {
   "property": "C06",
   "status": "proved",
   "theorems": [
    "Pasta.C06.display_parse",
    "Pasta.C06.parse_display_dot",
    "Pasta.C06.canonical"
   ],
   "note": ""
  },
  {
   "property": "C07",
   "status": "proved",
   "theorems": [
    "Pasta.C07.type_unique"
   ],
   "note": "For every payload-encoding suffix, with no condition on it."
  },
  {
   "property": "C08",
   "status": "proved",
   "theorems": [
    "Pasta.C08.unforgeable",
    "Pasta.C08.issued_message",
    "Pasta.C08.event_text",
    "Pasta.C08.unforgeable_text"
   ],
   "note": "Reduction to a MAC forgery, by induction over histories of encryptions."
  },
  {
   "property": "C09",
   "status": "proved",
   "theorems": [
    "Pasta.C09.decrypt_other_assertion",
    "Pasta.C09.verify_other_assertion"
   ],
   "note": ""
  },
  {
   "property": "C10",
   "status": "proved",
   "theorems": [
    "Pasta.C10.decrypt_other_footer",
    "Pasta.C10.verify_other_footer",
    "Pasta.C10.decrypt_text_other_footer",
    "Pasta.C10.verify_text_other_footer"
   ],
   "note": ""
  },
  {
   "property": "C11",
   "status": "proved",
   "theorems": [
    "Pasta.C11.decrypt_unauthentic",
    "Pasta.C11.verify_unauthentic",
    "Pasta.C11.decrypt_payload_error",
    "Pasta.C11.verify_payload_error",
    "Pasta.C11.decrypt_status_independent",
    "Pasta.C11.verify_status_independent",
    "Pasta.C11.verify_unauthentic_exact"
   ],
   "note": ""
  },
  {
   "property": "C12",
   "status": "proved",
   "theorems": [
    "Pasta.C12.decrypt_panic_iff",
    "Pasta.C12.decrypt_outcomes",
    "Pasta.C12.no_panic_refuted"
   ],
   "note": "decrypt_outcomes and decrypt_panic_iff are exact; no_panic_refuted is the witness against the wanted property."
  },
  {
   "property": "C13",
   "status": "proved",
   "theorems": [
    "Pasta.C13.verify_panic_iff",
    "Pasta.C13.verify_outcomes",
    "Pasta.C13.no_panic_refuted",
    "Pasta.C13.no_panic_refuted_v3"
   ],
   "note": "verify_outcomes and verify_panic_iff are exact; no_panic_refuted and no_panic_refuted_v3 are the witnesses against the wanted property."
  },
  {
   "property": "C14",
   "status": "proved",
   "theorems": [
    "Pasta.C14.unforgeable",
    "Pasta.C14.event_is_query",
    "Pasta.C14.unforgeable_text"
   ],
   "note": "Reduction to a signature forgery, by induction over histories of signatures."
  },
  {
   "property": "C15",
   "status": "proved",
   "theorems": [
    "Pasta.C15.pae_spec",
    "Pasta.C15.pae_appends",
    "Pasta.C15.pae_slicing",
    "Pasta.C15.pae_injective",
    "Pasta.C15.pae_prefix_free"
   ],
   "note": ""
  },
  {
   "property": "C16",
   "status": "proved",
   "theorems": [
    "Pasta.C16.input_injective",
    "Pasta.C16.derivation_injective",
    "Pasta.C16.token_uses",
    "Pasta.C16.pie_uses",
    "Pasta.C16.hash_injective",
    "Pasta.C16.id_uses",
    "Pasta.C16.pw_uses",
    "Pasta.C16.seal_uses",
    "Pasta.C16.sign_uses"
   ],
   "note": "input_injective, derivation_injective and hash_injective separate the inputs; the *_uses theorems show that the operations are computed from exactly these inputs."
  },
  {
   "property": "C17",
   "status": "proved",
   "theorems": [
    "Pasta.C17.run_ok",
    "Pasta.C17.nonces",
    "Pasta.C17.nonce_reuse_iff",
    "Pasta.C17.nonce_only_rng"
   ],
   "note": ""
  },
  {
   "property": "C18",
   "status": "proved",
   "theorems": [
    "Pasta.C18.decrypt_raw_footer",
    "Pasta.C18.verify_raw_footer",
    "Pasta.C18.unit_footer",
    "Pasta.C18.bytes_footer",
    "Pasta.C18.json_footer",
    "Pasta.C18.footer_bytes",
    "Pasta.C18.footer_errors",
    "Pasta.C18.data_json",
    "Pasta.C18.stringFooter_json",
    "Pasta.C18.kidFooter_json",
    "Pasta.C18.kidFooter_read_iff",
    "Pasta.C18.data_read_iff",
    "Pasta.C18.stringFooter_read_iff",
    "Pasta.C18.kidFooter_grammar",
    "Pasta.C18.json_footer_read_iff"
   ],
   "note": "The *_read_iff and kidFooter_grammar theorems compare the JSON reader with the grammar of RFC 8259."
  },
  {
   "property": "C19",
   "status": "proved",
   "theorems": [
    "Pasta.C19.decrypt_footer",
    "Pasta.C19.verify_footer",
    "Pasta.C19.encrypt_footer",
    "Pasta.C19.sign_footer",
    "Pasta.C19.builder_contents",
    "Pasta.C19.no_footer_text"
   ],
   "note": ""
  },
  {
   "property": "C20",
   "status": "proved",
   "theorems": [
    "Pasta.C20.encrypt_is_empty_assertion",
    "Pasta.C20.sign_is_empty_assertion",
    "Pasta.C20.encrypt_spec",
    "Pasta.C20.encrypt_spec_v3",
    "Pasta.C20.decrypt_spec",
    "Pasta.C20.verify_spec",
    "Pasta.C20.sign_spec"
   ],
   "note": ""
  },
  {
   "property": "C21",
   "status": "proved",
   "theorems": [
    "Pasta.C21.local_layout",
    "Pasta.C21.public_layout"
   ],
   "note": ""
  },
  {
   "property": "C22",
   "status": "proved",
   "theorems": [
    "Pasta.C22.encode_is_base64url",
    "Pasta.C22.encode_into",
    "Pasta.C22.decode_iff",
    "Pasta.C22.decode_into_iff",
    "Pasta.C22.canonical",
    "Pasta.C22.injective",
    "Pasta.C22.text_length",
    "Pasta.C22.accepts_iff"
   ],
   "note": ""
  },
  {
   "property": "C23",
   "status": "proved",
   "theorems": [
    "Pasta.C23.write_b64"
   ],
   "note": ""
  },
  {
   "property": "C24",
   "status": "proved",
   "theorems": [
    "Pasta.C24.read_b64_iff",
    "Pasta.C24.read_b64_other",
    "Pasta.C24.length_check_harmless",
    "Pasta.C24.read_write"
   ],
   "note": ""
  },
  {
   "property": "C25",
   "status": "proved",
   "theorems": [
    "Pasta.C25.plaintext_roundtrip",
    "Pasta.C25.text_length"
   ],
   "note": ""
  },
  {
   "property": "C26",
   "status": "proved",
   "theorems": [
    "Pasta.C26.v3_public_not_canonical",
    "Pasta.C26.plaintext_canonical",
    "Pasta.C26.v3_public_canonical",
    "Pasta.C26.v3_public_accepts_iff"
   ],
   "note": "v3_public_canonical is the exact statement for V3 public keys, v3_public_not_canonical the witness, with the actual P-384."
  },
  {
   "property": "C27",
   "status": "proved",
   "theorems": [
    "Pasta.C27.from_to",
    "Pasta.C27.to_from",
    "Pasta.C27.v3_public_to_from",
    "Pasta.C27.local_from_bytes",
    "Pasta.C27.v4_secret_from_seed",
    "Pasta.C27.v4_secret_from_keypair",
    "Pasta.C27.v4_public_from_bytes",
    "Pasta.C27.v3_secret_from_bytes",
    "Pasta.C27.constructors_invert",
    "Pasta.C27.beq_iff_bytes",
    "Pasta.C27.beq_iff_eq",
    "Pasta.C27.beq_equivalence",
    "Pasta.C27.local_random",
    "Pasta.C27.v4_secret_random",
    "Pasta.C27.p384Random_spec",
    "Pasta.C27.v3_secret_random"
   ],
   "note": ""
  },
  {
   "property": "C28",
   "status": "proved",
   "theorems": [
    "Pasta.C28.v4_secret_iff",
    "Pasta.C28.v4_public_iff",
    "Pasta.C28.v3_secret_iff",
    "Pasta.C28.constructors_total",
    "Pasta.C28.v4_secret_invalid",
    "Pasta.C28.v4_public_invalid",
    "Pasta.C28.v3_secret_invalid",
    "Pasta.C28.plaintext_invalid_key",
    "Pasta.C28.v3_random_valid"
   ],
   "note": ""
  },
  {
   "property": "C29",
   "status": "proved",
   "theorems": [
    "Pasta.C29.id_roundtrip",
    "Pasta.C29.id_canonical",
    "Pasta.C29.id_accepts_iff",
    "Pasta.C29.debug_is_display",
    "Pasta.C29.id_length"
   ],
   "note": ""
  },
  {
   "property": "C30",
   "status": "proved",
   "theorems": [
    "Pasta.C30.fits",
    "Pasta.C30.idInput_eq",
    "Pasta.C30.id_spec",
    "Pasta.C30.id_text",
    "Pasta.C30.id_of_plaintext"
   ],
   "note": ""
  },
  {
   "property": "C31",
   "status": "proved",
   "theorems": [
    "Pasta.C31.eq_iff_text",
    "Pasta.C31.eq_iff",
    "Pasta.C31.cmp_lt_iff",
    "Pasta.C31.cmp_eq_iff",
    "Pasta.C31.cmp_swap",
    "Pasta.C31.cmp_trans",
    "Pasta.C31.cmp_total",
    "Pasta.C31.partialCmp_eq",
    "Pasta.C31.hash_iff"
   ],
   "note": ""
  },
  {
   "property": "C32",
   "status": "proved",
   "theorems": [
    "Pasta.C32.hashed_inj",
    "Pasta.C32.same_id",
    "Pasta.C32.text_type_unique",
    "Pasta.C32.same_id_text"
   ],
   "note": ""
  },
  {
   "property": "C33",
   "status": "proved",
   "theorems": [
    "Pasta.C33.pie_roundtrip",
    "Pasta.C33.pie_roundtrip_direct",
    "Pasta.C33.wrap_outcome",
    "Pasta.C33.pie_text_iff"
   ],
   "note": ""
  },
  {
   "property": "C34",
   "status": "proved",
   "theorems": [
    "Pasta.C34.v3_ctr_deviates_aes",
    "Pasta.C34.pieWrap_be64_iff",
    "Pasta.C34.v4_wrap",
    "Pasta.C34.v3_wrap",
    "Pasta.C34.v3_standard_iff",
    "Pasta.C34.v3_wrap_standard",
    "Pasta.C34.v3_ctr_deviates",
    "Pasta.C34.v4_unwrap",
    "Pasta.C34.v3_unwrap",
    "Pasta.C34.v3_unwrap_standard",
    "Pasta.C34.wrap_layout"
   ],
   "note": "V4: v4_wrap, v4_unwrap. V3: v3_wrap, v3_unwrap for the code's 64-bit counter, v3_standard_iff exact comparison, v3_ctr_deviates witness."
  },
  {
   "property": "C35",
   "status": "proved",
   "theorems": [
    "Pasta.C35.pieTagged_inj",
    "Pasta.C35.authentic_iff",
    "Pasta.C35.unauthentic",
    "Pasta.C35.wrong_tag",
    "Pasta.C35.tampered",
    "Pasta.C35.wrong_key",
    "Pasta.C35.unforgeable",
    "Pasta.C35.history_key"
   ],
   "note": ""
  },
  {
   "property": "C36",
   "status": "proved",
   "theorems": [
    "Pasta.C36.unwrap_total",
    "Pasta.C36.local_unwrap_total",
    "Pasta.C36.text_unwrap_total"
   ],
   "note": ""
  },
  {
   "property": "C37",
   "status": "proved",
   "theorems": [
    "Pasta.C37.pw_roundtrip",
    "Pasta.C37.pw_roundtrip_direct",
    "Pasta.C37.wrap_outcome",
    "Pasta.C37.default_roundtrip"
   ],
   "note": ""
  },
  {
   "property": "C38",
   "status": "proved",
   "theorems": [
    "Pasta.C38.v3_ctr_reached",
    "Pasta.C38.pwWrap_be64_iff",
    "Pasta.C38.v4_wrap",
    "Pasta.C38.v3_wrap",
    "Pasta.C38.v3_standard_iff",
    "Pasta.C38.v3_wrap_standard",
    "Pasta.C38.v3_ctr_deviates",
    "Pasta.C38.v4_unwrap",
    "Pasta.C38.v3_unwrap",
    "Pasta.C38.v3_unwrap_standard"
   ],
   "note": "V4: v4_wrap, v4_unwrap. V3: v3_wrap, v3_unwrap for the code's 64-bit counter, v3_standard_iff exact comparison, v3_ctr_deviates witness, v3_ctr_reached the same with the actual algorithms."
  },
  {
   "property": "C39",
   "status": "proved",
   "theorems": [
    "Pasta.C39.settings_preserved",
    "Pasta.C39.v3_settings_reported",
    "Pasta.C39.v4_settings_reported",
    "Pasta.C39.unwrap_uses_settings",
    "Pasta.C39.v4_settings_refuted",
    "Pasta.C39.v3_defaults",
    "Pasta.C39.v4_defaults"
   ],
   "note": "v4_settings_refuted is the witness that the reported V4 memory is not always the encoded one."
  },
  {
   "property": "C40",
   "status": "proved",
   "theorems": [
    "Pasta.C40.v3_canonical",
    "Pasta.C40.v3_injective",
    "Pasta.C40.v4_texts",
    "Pasta.C40.v4_printed_iff",
    "Pasta.C40.v4_not_canonical",
    "Pasta.C40.parse_display",
    "Pasta.C40.text_length"
   ],
   "note": "v4_printed_iff and v4_texts are exact; v4_not_canonical is the witness against the wanted property."
  },
  {
   "property": "C41",
   "status": "proved",
   "theorems": [
    "Pasta.C41.unwrap_panic_iff",
    "Pasta.C41.unwrap_outcomes",
    "Pasta.C41.v3_unwrap_total",
    "Pasta.C41.v4_unwrap_total",
    "Pasta.C41.no_panic_refuted"
   ],
   "note": "unwrap_outcomes and unwrap_panic_iff are exact; no_panic_refuted is the witness against the wanted property."
  },
  {
   "property": "C42",
   "status": "proved",
   "theorems": [
    "Pasta.C42.pwTagged_inj",
    "Pasta.C42.authentic_iff",
    "Pasta.C42.unauthentic",
    "Pasta.C42.unauthentic_exact",
    "Pasta.C42.wrong_tag",
    "Pasta.C42.tampered",
    "Pasta.C42.wrong_password",
    "Pasta.C42.v3_text_tampered",
    "Pasta.C42.v4_text_tampered",
    "Pasta.C42.v4_text_malleable",
    "Pasta.C42.unforgeable",
    "Pasta.C42.history_key"
   ],
   "note": "v4_text_malleable is the witness for the four ignored bytes, v4_text_tampered the statement for all other changes."
  },
  {
   "property": "C43",
   "status": "proved",
   "theorems": [
    "Pasta.C43.seal_outcome",
    "Pasta.C43.shared_secret",
    "Pasta.C43.seal_roundtrip_direct",
    "Pasta.C43.seal_roundtrip",
    "Pasta.C43.seal_text_iff"
   ],
   "note": ""
  },
  {
   "property": "C44",
   "status": "proved",
   "theorems": [
    "Pasta.C44.v4_seal_refuted",
    "Pasta.C44.v3_ctr_deviates_aes",
    "Pasta.C44.v4_shared_iff",
    "Pasta.C44.v4_seal_standard",
    "Pasta.C44.multiple_public",
    "Pasta.C44.sealBytes_be64_iff",
    "Pasta.C44.v3_seal",
    "Pasta.C44.v3_standard_iff",
    "Pasta.C44.v3_seal_standard",
    "Pasta.C44.v3_ctr_deviates",
    "Pasta.C44.v4_seal_reduced",
    "Pasta.C44.v4_seal_torsion_free",
    "Pasta.C44.v4_seal",
    "Pasta.C44.v3_unseal",
    "Pasta.C44.v3_unseal_standard",
    "Pasta.C44.v4_unseal_reduced",
    "Pasta.C44.v4_unseal_torsion_free",
    "Pasta.C44.v4_unseal_honest"
   ],
   "note": "v3_standard_iff exact comparison, v3_ctr_deviates and v4_seal_refuted (with the actual Curve25519) are witnesses of the deviations; v4_shared_iff is exact for V4."
  },
  {
   "property": "C45",
   "status": "proved",
   "theorems": [
    "Pasta.C45.sealTagged_inj",
    "Pasta.C45.authentic_iff",
    "Pasta.C45.outcomes",
    "Pasta.C45.wrong_tag",
    "Pasta.C45.tampered",
    "Pasta.C45.wrong_recipient",
    "Pasta.C45.unforgeable",
    "Pasta.C45.history_key",
    "Pasta.C45.text_tampered"
   ],
   "note": ""
  },
  {
   "property": "C46",
   "status": "proved",
   "theorems": [
    "Pasta.C46.panic_text",
    "Pasta.C46.unseal_panic_iff",
    "Pasta.C46.unseal_outcomes",
    "Pasta.C46.v4_unseal_total",
    "Pasta.C46.no_panic_refuted"
   ],
   "note": "unseal_outcomes and unseal_panic_iff are exact; no_panic_refuted is the witness against the wanted property, panic_text with the actual P-384."
  },
  {
   "property": "C47",
   "status": "proved",
   "theorems": [
    "Pasta.C47.paserkText_inj",
    "Pasta.C47.paserk_unique",
    "Pasta.C47.token_not_paserk"
   ],
   "note": ""
  },
  {
   "property": "C48",
   "status": "proved",
   "theorems": [
    "Pasta.C48.token_parse",
    "Pasta.C48.plaintext_parse",
    "Pasta.C48.id_parse",
    "Pasta.C48.pie_parse",
    "Pasta.C48.pw_parse",
    "Pasta.C48.seal_parse"
   ],
   "note": ""
  },
  {
   "property": "C49",
   "status": "proved",
   "theorems": [
    "Pasta.C49.token",
    "Pasta.C49.plaintext",
    "Pasta.C49.keyId",
    "Pasta.C49.pie",
    "Pasta.C49.pw",
    "Pasta.C49.sealed",
    "Pasta.C49.serialize_is_display",
    "Pasta.C49.roundtrip"
   ],
   "note": ""
  },
  {
   "property": "C50",
   "status": "proved",
   "theorems": [
    "Pasta.C50.get_insert",
    "Pasta.C50.ofKeys_get",
    "Pasta.C50.ofKeys_mem",
    "Pasta.C50.lookup",
    "Pasta.C50.rotation",
    "Pasta.C50.distinct_or_collision",
    "Pasta.C50.verified_by_named_key",
    "Pasta.C50.documented_flow"
   ],
   "note": ""
  },
  {
   "property": "C51",
   "status": "proved",
   "theorems": [
    "Pasta.C51.step_eq",
    "Pasta.C51.travel_eq",
    "Pasta.C51.recovered_decrypts",
    "Pasta.C51.recovered_signs",
    "Pasta.C51.recovered_verifies",
    "Pasta.C51.steps_exist",
    "Pasta.C51.seal_step_exists"
   ],
   "note": ""
  },
  {
   "property": "C52",
   "status": "proved",
   "theorems": [
    "Pasta.C52.debug_constant"
   ],
   "note": ""
  },
  {
   "property": "C53",
   "status": "proved",
   "theorems": [
    "Pasta.C53.source_iff",
    "Pasta.C53.display_constant",
    "Pasta.C53.display_payload"
   ],
   "note": ""
  },
  {
   "property": "C54",
   "status": "proved",
   "theorems": [
    "Pasta.C54.json_footer_ok",
    "Pasta.C54.local_harness",
    "Pasta.C54.public_harness",
    "Pasta.C54.public_harness_v4",
    "Pasta.C54.wrap_harness",
    "Pasta.C54.seal_v3_harness",
    "Pasta.C54.seal_v4_harness",
    "Pasta.C54.parse_harness"
   ],
   "note": "Includes the JSON payload and footer types of the harnesses, with serde_json modelled for these types."
  },
  {
   "property": "C55",
   "status": "proved",
   "theorems": [
    "Pasta.C55.genericDecrypt_same",
    "Pasta.C55.decrypt_same",
    "Pasta.C55.pie_unwrap_same",
    "Pasta.C55.pw_unwrap_same",
    "Pasta.C55.verify_same",
    "Pasta.C55.unseal_same",
    "Pasta.C55.decrypt_steps",
    "Pasta.C55.decrypt_trace",
    "Pasta.C55.decrypt_reject",
    "Pasta.C55.verify_steps",
    "Pasta.C55.verify_trace",
    "Pasta.C55.verify_reject",
    "Pasta.C55.pie_steps",
    "Pasta.C55.pie_trace",
    "Pasta.C55.pw_steps",
    "Pasta.C55.pw_trace",
    "Pasta.C55.unseal_steps_v3",
    "Pasta.C55.unseal_steps_v4",
    "Pasta.C55.unseal_trace"
   ],
   "note": "An instrumented copy of decryption and the three unwrap operations, shown to return the same results; the inside of primitives and decoders is one step each."
  },
  {
   "property": "C56",
   "status": "proved",
   "theorems": [
    "Pasta.C56.token_prints",
    "Pasta.C56.plaintext_prints",
    "Pasta.C56.id_prints",
    "Pasta.C56.pie_prints",
    "Pasta.C56.pw_prints",
    "Pasta.C56.seal_prints",
    "Pasta.C56.to_string",
    "Pasta.C56.faithful",
    "Pasta.C56.no_panic",
    "Pasta.C56.total",
    "Pasta.C56.options_ignored",
    "Pasta.C56.bounded_iff",
    "Pasta.C56.twice",
    "Pasta.C56.json",
    "Pasta.C56.json_plain",
    "Pasta.C56.plain_paserk",
    "Pasta.C56.plain_token",
    "Pasta.C56.json_roundtrip",
    "Pasta.C56.json_read_iff",
    "Pasta.C56.expecting"
   ],
   "note": ""
  },
  {
   "property": "C57",
   "status": "proved",
   "theorems": [
    "Pasta.C57.left_or_right",
    "Pasta.C57.one_key_each",
    "Pasta.C57.one",
    "Pasta.C57.own_key_only",
    "Pasta.C57.token_text_length",
    "Pasta.C57.token_length_leaks",
    "Pasta.C57.nonce_reuse_leaks"
   ],
   "note": ""
  },
  {
   "property": "C58",
   "status": "proved",
   "theorems": [
    "Pasta.C58.local_key",
    "Pasta.C58.v4_secret_key",
    "Pasta.C58.v3_secret_key",
    "Pasta.C58.encrypt",
    "Pasta.C58.wrap_pie",
    "Pasta.C58.wrap_pw",
    "Pasta.C58.seal_v4",
    "Pasta.C58.seal_v3",
    "Pasta.C58.local_key_consumer",
    "Pasta.C58.secret_key_consumer",
    "Pasta.C58.encrypt_consumer",
    "Pasta.C58.wrap_pie_consumer",
    "Pasta.C58.wrap_pw_consumer",
    "Pasta.C58.seal_consumer",
    "Pasta.C58.segments",
    "Pasta.C58.short_panics",
    "Pasta.C58.fake_fill",
    "Pasta.C58.fake_delivers",
    "Pasta.C58.fake_op",
    "Pasta.C58.fake_arbitrary",
    "Pasta.C58.arbitrary_keys"
   ],
   "note": ""
  },
  {
   "property": "C59",
   "status": "not_applicable",
   "theorems": [],
   "note": "A property of compiled code and machine memory, not of any value the code computes: a functional model has neither timing nor dropped memory. The source has no Drop or zeroize code of its own. What can be said of the source, the step traces, is C55."
  },
  {
   "property": "C60",
   "status": "proved",
   "theorems": [
    "Pasta.C60.decrypt_other_key",
    "Pasta.C60.verify_other_key"
   ],
   "note": ""
  },
  {
   "property": "C61",
   "status": "proved",
   "theorems": [
    "Pasta.C61.token_unforgeable",
    "Pasta.C61.wrap_unforgeable"
   ],
   "note": ""
  },
  {
   "property": "C62",
   "status": "proved",
   "theorems": [
    "Pasta.C62.public_roundtrip",
    "Pasta.C62.v4_public_roundtrip",
    "Pasta.C62.plaintext_roundtrip",
    "Pasta.C62.pie_roundtrip",
    "Pasta.C62.pw_roundtrip",
    "Pasta.C62.seal_roundtrip",
    "Pasta.C62.travel_eq"
   ],
   "note": ""
  },
  {
   "property": "C63",
   "status": "proved",
   "theorems": [
    "Pasta.C63.v3_malleable",
    "Pasta.C63.v3_malleable_text",
    "Pasta.C63.v4_second_half"
   ],
   "note": ""
  },
  {
   "property": "C64",
   "status": "proved",
   "theorems": [
    "Pasta.C64.weak_key",
    "Pasta.C64.weak_key_text"
   ],
   "note": ""
  },
  {
   "property": "C65",
   "status": "proved",
   "theorems": [
    "Pasta.C65.v3_publicKey_inj",
    "Pasta.C65.v3_public_text_inj",
    "Pasta.C65.v3_publicKey_bijective"
   ],
   "note": ""
  },
  {
   "property": "C66",
   "status": "proved",
   "theorems": [
    "Pasta.C66.secret_file_iff",
    "Pasta.C66.public_file_iff",
    "Pasta.C66.public_file_only",
    "Pasta.C66.secret_file_only",
    "Pasta.C66.other_label",
    "Pasta.C66.curve_ignored",
    "Pasta.C66.files_exist",
    "Pasta.C66.sec1_iff",
    "Pasta.C66.public_point",
    "Pasta.C66.public_file",
    "Pasta.C66.secret_file"
   ],
   "note": "secret_file_iff, public_file_iff and other_label hold for all primitives; sec1_iff, public_file and secret_file are about P-384 itself. curve_ignored is a deviation from RFC 5915."
  },
  {
   "property": "C67",
   "status": "proved",
   "theorems": [
    "Pasta.C67.accepted",
    "Pasta.C67.printed",
    "Pasta.C67.token"
   ],
   "note": ""
  },
  {
   "property": "C68",
   "status": "proved",
   "theorems": [
    "Pasta.C68.v4_publicKey_iff",
    "Pasta.C68.v4_public_text_iff",
    "Pasta.C68.v4_recipient_iff",
    "Pasta.C68.v3_recipient_inj"
   ],
   "note": ""
  },
  {
   "property": "C69",
   "status": "proved",
   "theorems": [
    "Pasta.C69.v3_ephemeral_iff",
    "Pasta.C69.v4_ephemeral_iff",
    "Pasta.C69.v3_texts_differ",
    "Pasta.C69.v4_texts_differ"
   ],
   "note": ""
  },
  {
   "property": "C70",
   "status": "proved",
   "theorems": [
    "Pasta.C70.small_order_recipient",
    "Pasta.C70.weak_recipient"
   ],
   "note": ""
  },
  {
   "property": "C71",
   "status": "proved",
   "theorems": [
    "Pasta.C71.same_unwrap",
    "Pasta.C71.same_wrap",
    "Pasta.C71.trailing_zeros",
    "Pasta.C71.long_password",
    "Pasta.C71.second_password",
    "Pasta.C71.hmacKey_short_iff",
    "Pasta.C71.v4_inputs_differ",
    "Pasta.C71.v4_through_one_hash",
    "Pasta.C71.v3_rfc8018",
    "Pasta.C71.v3_zero_iterations"
   ],
   "note": "same_unwrap and same_wrap are the general statements, second_password the witness against the wanted property."
  },
  {
   "property": "C72",
   "status": "proved",
   "theorems": [
    "Pasta.C72.v4_one_message",
    "Pasta.C72.v3_one_message",
    "Pasta.C72.honest_key",
    "Pasta.C72.small_order_parses",
    "Pasta.C72.small_order_forgery"
   ],
   "note": ""
  },
  {
   "property": "C73",
   "status": "proved",
   "theorems": [
    "Pasta.C73.local_commits",
    "Pasta.C73.local_other_key",
    "Pasta.C73.pie_commits",
    "Pasta.C73.pie_other_key",
    "Pasta.C73.seal_commits",
    "Pasta.C73.pw_commits"
   ],
   "note": ""
  },
  {
   "property": "C74",
   "status": "proved",
   "theorems": [
    "Pasta.C74.run_local",
    "Pasta.C74.chosen_ciphertext",
    "Pasta.C74.same_text",
    "Pasta.C74.opened_is_forgery"
   ],
   "note": ""
  },
  {
   "property": "C75",
   "status": "proved",
   "theorems": [
    "Pasta.C75.nonces_are_blocks",
    "Pasta.C75.card_blocks",
    "Pasta.C75.repeats",
    "Pasta.C75.repeats_practical",
    "Pasta.C75.distinct_exactly"
   ],
   "note": ""
  },
  {
   "property": "C76",
   "status": "proved",
   "theorems": [
    "Pasta.C76.tags",
    "Pasta.C76.token",
    "Pasta.C76.pie",
    "Pasta.C76.pw",
    "Pasta.C76.sealed"
   ],
   "note": ""
  },
  {
   "property": "C77",
   "status": "proved",
   "theorems": [
    "Pasta.C77.decrypt_work",
    "Pasta.C77.verify_work",
    "Pasta.C77.pie_work",
    "Pasta.C77.unseal_work",
    "Pasta.C77.pw_work",
    "Pasta.C77.pw_text_chooses"
   ],
   "note": ""
  },
  {
   "property": "C78",
   "status": "proved",
   "theorems": [
    "Pasta.C78.in_force_iff",
    "Pasta.C78.accepted",
    "Pasta.C78.not_in_force",
    "Pasta.C78.same_key_same_answer",
    "Pasta.C78.signed_accepted"
   ],
   "note": ""
  },
  {
   "property": "C79",
   "status": "proved",
   "theorems": [
    "Pasta.C79.record_read_iff",
    "Pasta.C79.record_written",
    "Pasta.C79.record_refused",
    "Pasta.C79.claims_refused",
    "Pasta.C79.read_iff",
    "Pasta.C79.one_meaning",
    "Pasta.C79.written",
    "Pasta.C79.written_only",
    "Pasta.C79.unwritten_unsigned",
    "Pasta.C79.documented_program",
    "Pasta.C79.accepted_spells",
    "Pasta.C79.claims_were_issued"
   ],
   "note": ""
  },
  {
   "property": "C80",
   "status": "proved",
   "theorems": [
    "Pasta.C80.encrypt_within",
    "Pasta.C80.encrypt_beyond",
    "Pasta.C80.decrypt_within",
    "Pasta.C80.decrypt_beyond",
    "Pasta.C80.roundtrip",
    "Pasta.C80.v3_unlimited",
    "Pasta.C80.keys"
   ],
   "note": ""
  },
  {
   "property": "C81",
   "status": "proved",
   "theorems": [
    "Pasta.C81.forging_bound",
    "Pasta.C81.own_tags",
    "Pasta.C81.bound_attained"
   ],
   "note": ""
  },
  {
   "property": "C82",
   "status": "proved",
   "theorems": [
    "Pasta.C82.advantage",
    "Pasta.C82.runs",
    "Pasta.C82.reached"
   ],
   "note": ""
  },
  {
   "property": "C83",
   "status": "proved",
   "theorems": [
    "Pasta.C83.advantage",
    "Pasta.C83.runs",
    "Pasta.C83.issued_tells",
    "Pasta.C83.prober_plays"
   ],
   "note": ""
  },
  {
   "property": "C84",
   "status": "proved",
   "theorems": [
    "Pasta.C84.found",
    "Pasta.C84.named",
    "Pasta.C84.attained",
    "Pasta.C84.untried_alike"
   ],
   "note": ""
  },
  {
   "property": "C85",
   "status": "proved",
   "theorems": [
    "Pasta.C85.collision",
    "Pasta.C85.imitation",
    "Pasta.C85.two_keys",
    "Pasta.C85.own"
   ],
   "note": ""
  },
  {
   "property": "C86",
   "status": "proved",
   "theorems": [
    "Pasta.C86.v4_nonce",
    "Pasta.C86.v3_nonce",
    "Pasta.C86.v4_repeated",
    "Pasta.C86.v3_repeated"
   ],
   "note": ""
  },
  {
   "property": "C87",
   "status": "proved",
   "theorems": [
    "Pasta.C87.encrypt_same",
    "Pasta.C87.sign_same",
    "Pasta.C87.pie_same",
    "Pasta.C87.pw_same",
    "Pasta.C87.seal_same",
    "Pasta.C87.encrypt_steps",
    "Pasta.C87.encrypt_trace",
    "Pasta.C87.encrypt_visible",
    "Pasta.C87.encrypt_refused",
    "Pasta.C87.sign_steps",
    "Pasta.C87.sign_trace",
    "Pasta.C87.sign_refused",
    "Pasta.C87.pie_steps",
    "Pasta.C87.pie_trace",
    "Pasta.C87.pw_steps",
    "Pasta.C87.pw_trace",
    "Pasta.C87.seal_steps_v4",
    "Pasta.C87.seal_steps_v3",
    "Pasta.C87.seal_trace",
    "Pasta.C87.encrypt_work",
    "Pasta.C87.sign_work",
    "Pasta.C87.pie_work",
    "Pasta.C87.pw_work",
    "Pasta.C87.seal_work"
   ],
   "note": ""
  },
  {
   "property": "C88",
   "status": "proved",
   "theorems": [
    "Pasta.C88.which_key",
    "Pasta.C88.ephemeral_iff",
    "Pasta.C88.asked_passive",
    "Pasta.C88.solve_spec",
    "Pasta.C88.which_key_diffie_hellman",
    "Pasta.C88.which_key_random_tags"
   ],
   "note": ""
  },
  {
   "property": "C89",
   "status": "proved",
   "theorems": [
    "Pasta.C89.which_key",
    "Pasta.C89.no_forging",
    "Pasta.C89.which_key_guess",
    "Pasta.C89.which_key_random_tags"
   ],
   "note": ""
  },
  {
   "property": "C90",
   "status": "proved",
   "theorems": [
    "Pasta.C90.forge_bound",
    "Pasta.C90.actual_hash",
    "Pasta.C90.scalar_signs",
    "Pasta.C90.knower_wins",
    "Pasta.C90.knower_chance"
   ],
   "note": ""
  },
  {
   "property": "C91",
   "status": "proved",
   "theorems": [
    "Pasta.C91.accepted_iff",
    "Pasta.C91.refused_iff",
    "Pasta.C91.kept",
    "Pasta.C91.keys_inj",
    "Pasta.C91.stands",
    "Pasta.C91.one_point",
    "Pasta.C91.encodings",
    "Pasta.C91.of_secret",
    "Pasta.C91.seals_alike",
    "Pasta.C91.v4_count",
    "Pasta.C91.v3_count",
    "Pasta.C91.v4_with_secret",
    "Pasta.C91.v4_few",
    "Pasta.C91.text_accepted_iff",
    "Pasta.C91.neutral"
   ],
   "note": ""
  },
  {
   "property": "C92",
   "status": "proved",
   "theorems": [
    "Pasta.C92.repeats",
    "Pasta.C92.repeats_practical",
    "Pasta.C92.salts_v3",
    "Pasta.C92.salts_v4",
    "Pasta.C92.served",
    "Pasta.C92.two_keys"
   ],
   "note": ""
  },
  {
   "property": "C93",
   "status": "proved",
   "theorems": [
    "Pasta.C93.advantage",
    "Pasta.C93.advantage_practical",
    "Pasta.C93.distinct_nonces",
    "Pasta.C93.unlinkable",
    "Pasta.C93.runs",
    "Pasta.C93.idealised"
   ],
   "note": ""
  },
  {
   "property": "C94",
   "status": "proved",
   "theorems": [
    "Pasta.C94.advantage",
    "Pasta.C94.advantage_practical",
    "Pasta.C94.runs"
   ],
   "note": ""
  },
  {
   "property": "C95",
   "status": "proved",
   "theorems": [
    "Pasta.C95.forging_bound",
    "Pasta.C95.misuse_bound",
    "Pasta.C95.one_key"
   ],
   "note": ""
  },
  {
   "property": "C96",
   "status": "proved",
   "theorems": [
    "Pasta.C96.advantage",
    "Pasta.C96.advantage_practical",
    "Pasta.C96.runs",
    "Pasta.C96.prober_plays"
   ],
   "note": ""
  },
  {
   "property": "C97",
   "status": "proved",
   "theorems": [
    "Pasta.C97.which_recipient",
    "Pasta.C97.which_recipient_diffie_hellman",
    "Pasta.C97.which_recipient_random_tags"
   ],
   "note": ""
  },
  {
   "property": "C98",
   "status": "proved",
   "theorems": [
    "Pasta.C98.which_many",
    "Pasta.C98.which_many_diffie_hellman",
    "Pasta.C98.which_many_random_tags",
    "Pasta.C98.good_tapes_v4",
    "Pasta.C98.good_tapes_v3",
    "Pasta.C98.exist_good_tapes"
   ],
   "note": ""
  },
  {
   "property": "C99",
   "status": "proved",
   "theorems": [
    "Pasta.C99.advantage",
    "Pasta.C99.advantage_practical",
    "Pasta.C99.runs"
   ],
   "note": ""
  },
  {
   "property": "C100",
   "status": "proved",
   "theorems": [
    "Pasta.C100.advantage",
    "Pasta.C100.unopened",
    "Pasta.C100.advantage_practical",
    "Pasta.C100.runs"
   ],
   "note": ""
  },
  {
   "property": "C101",
   "status": "proved",
   "theorems": [
    "Pasta.C101.advantage",
    "Pasta.C101.key_found",
    "Pasta.C101.unopened",
    "Pasta.C101.advantage_practical",
    "Pasta.C101.runs"
   ],
   "note": ""
  },
  {
   "property": "C102",
   "status": "proved",
   "theorems": [
    "Pasta.C102.advantage",
    "Pasta.C102.key_met",
    "Pasta.C102.unopened",
    "Pasta.C102.secret_computed",
    "Pasta.C102.secret_computed_helped",
    "Pasta.C102.advantage_practical",
    "Pasta.C102.advantage_passive",
    "Pasta.C102.advantage_helped",
    "Pasta.C102.runs",
    "Pasta.C102.unseals",
    "Pasta.C102.recipient"
   ],
   "note": ""
  },
  {
   "property": "C103",
   "status": "proved",
   "theorems": [
    "Pasta.C103.advantage",
    "Pasta.C103.key_met",
    "Pasta.C103.unopened",
    "Pasta.C103.advantage_practical",
    "Pasta.C103.runs",
    "Pasta.C103.recipient"
   ],
   "note": ""
  },
  {
   "property": "C104",
   "status": "proved",
   "theorems": [
    "Pasta.C104.advantage",
    "Pasta.C104.key_met",
    "Pasta.C104.unopened",
    "Pasta.C104.advantage_practical",
    "Pasta.C104.runs"
   ],
   "note": ""
  },
  {
   "property": "C105",
   "status": "proved",
   "theorems": [
    "Pasta.C105.advantage",
    "Pasta.C105.key_met",
    "Pasta.C105.unopened",
    "Pasta.C105.advantage_practical",
    "Pasta.C105.told",
    "Pasta.C105.runs"
   ],
   "note": ""
  },
  {
   "property": "C106",
   "status": "proved",
   "theorems": [
    "Pasta.C106.advantage",
    "Pasta.C106.key_met",
    "Pasta.C106.unopened",
    "Pasta.C106.advantage_practical",
    "Pasta.C106.generated",
    "Pasta.C106.runs"
   ],
   "note": ""
  },
  {
   "property": "C107",
   "status": "proved",
   "theorems": [
    "Pasta.C107.either_side",
    "Pasta.C107.semantic",
    "Pasta.C107.semantic_practical",
    "Pasta.C107.guessed",
    "Pasta.C107.guessed_uneven",
    "Pasta.C107.key_guessed",
    "Pasta.C107.runs"
   ],
   "note": ""
  },
  {
   "property": "C108",
   "status": "proved",
   "theorems": [
    "Pasta.C108.delivered",
    "Pasta.C108.semantic",
    "Pasta.C108.semantic_unsealing",
    "Pasta.C108.guessed",
    "Pasta.C108.guessed_unsealing",
    "Pasta.C108.guessed_uneven"
   ],
   "note": ""
  },
  {
   "property": "C109",
   "status": "proved",
   "theorems": [
    "Pasta.C109.semantic",
    "Pasta.C109.guessed",
    "Pasta.C109.opened"
   ],
   "note": ""
  },
  {
   "property": "C110",
   "status": "proved",
   "theorems": [
    "Pasta.C110.which_key",
    "Pasta.C110.semantic",
    "Pasta.C110.guessed",
    "Pasta.C110.guessed_uneven",
    "Pasta.C110.likeliest",
    "Pasta.C110.even"
   ],
   "note": ""
  }
 ]
}
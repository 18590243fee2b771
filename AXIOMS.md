# Axioms of each theorem

Written by `mkaxioms.py` from the compiled project. "laws" marks the theorems whose
statement mentions `Prims.Laws`, the algebraic laws assumed of the primitives.

| theorem | axioms | laws |
|---|---|---|
| `C01.local_roundtrip` | Classical.choice, Quot.sound, propext |  |
| `C01.local_roundtrip_direct` | Classical.choice, Quot.sound, propext |  |
| `C01.encrypt_outcome` | Classical.choice, Quot.sound, propext |  |
| `C02.verifyRaw_signRaw` | Classical.choice, Quot.sound, propext | yes |
| `C02.sign_outcome` | Classical.choice, Quot.sound, propext |  |
| `C02.v4_sign_ok` | Classical.choice, Quot.sound, propext |  |
| `C02.public_roundtrip` | Classical.choice, Quot.sound, propext | yes |
| `C02.public_roundtrip_direct` | Classical.choice, Quot.sound, propext | yes |
| `C03.localEncrypt_be64_iff` | Classical.choice, Quot.sound, propext |  |
| `C03.v4_encrypt` | Classical.choice, Quot.sound, propext |  |
| `C03.v3_encrypt` | Classical.choice, Quot.sound, propext |  |
| `C03.v3_standard_iff` | Classical.choice, Quot.sound, propext |  |
| `C03.v3_encrypt_standard` | Classical.choice, Quot.sound, propext |  |
| `C03.v3_ctr_deviates` | Classical.choice, Quot.sound, propext |  |
| `C03.decrypt_accepts_iff` | Classical.choice, Quot.sound, propext |  |
| `C03.v4_decrypt` | Classical.choice, Quot.sound, propext |  |
| `C03.v3_decrypt` | Classical.choice, Quot.sound, propext |  |
| `C03.v3_decrypt_standard` | Classical.choice, Quot.sound, propext |  |
| `C04.sign_spec` | Classical.choice, Quot.sound, propext |  |
| `C04.verify_spec` | Classical.choice, Quot.sound, propext |  |
| `C04.verify_accepts_iff` | Classical.choice, Quot.sound, propext |  |
| `C05.parse_iff` | Classical.choice, Quot.sound, propext |  |
| `C05.accepts_iff` | Classical.choice, Quot.sound, propext |  |
| `C05.grammar_unambiguous` | Classical.choice, Quot.sound, propext |  |
| `C06.display_parse` | Classical.choice, Quot.sound, propext |  |
| `C06.parse_display_dot` | Classical.choice, Quot.sound, propext |  |
| `C06.canonical` | Classical.choice, Quot.sound, propext |  |
| `C07.type_unique` | Classical.choice, Quot.sound, propext |  |
| `C08.unforgeable` | Classical.choice, Quot.sound, propext |  |
| `C08.issued_message` | Classical.choice, Quot.sound, propext |  |
| `C08.event_text` | Classical.choice, Quot.sound, propext |  |
| `C08.unforgeable_text` | Classical.choice, Quot.sound, propext |  |
| `C09.decrypt_other_assertion` | Classical.choice, Quot.sound, propext |  |
| `C09.verify_other_assertion` | Classical.choice, Quot.sound, propext |  |
| `C10.decrypt_other_footer` | Classical.choice, Quot.sound, propext |  |
| `C10.verify_other_footer` | Classical.choice, Quot.sound, propext |  |
| `C10.decrypt_text_other_footer` | Classical.choice, Quot.sound, propext |  |
| `C10.verify_text_other_footer` | Classical.choice, Quot.sound, propext |  |
| `C11.decrypt_unauthentic` | Classical.choice, Quot.sound, propext |  |
| `C11.verify_unauthentic` | Classical.choice, Quot.sound, propext |  |
| `C11.decrypt_payload_error` | Classical.choice, Quot.sound, propext |  |
| `C11.verify_payload_error` | Classical.choice, Quot.sound, propext |  |
| `C11.decrypt_status_independent` | Classical.choice, Quot.sound, propext |  |
| `C11.verify_status_independent` | Classical.choice, Quot.sound, propext |  |
| `C11.verify_unauthentic_exact` | Classical.choice, Quot.sound, propext |  |
| `C12.decrypt_panic_iff` | Classical.choice, Quot.sound, propext |  |
| `C12.decrypt_outcomes` | Classical.choice, Quot.sound, propext |  |
| `C12.no_panic_refuted` | Classical.choice, Quot.sound, propext |  |
| `C13.verify_panic_iff` | Classical.choice, Quot.sound, propext |  |
| `C13.verify_outcomes` | Classical.choice, Quot.sound, propext |  |
| `C13.no_panic_refuted` | Classical.choice, Quot.sound, propext |  |
| `C13.no_panic_refuted_v3` | Classical.choice, Quot.sound, propext |  |
| `C14.unforgeable` | Classical.choice, Quot.sound, propext |  |
| `C14.event_is_query` | Classical.choice, Quot.sound, propext |  |
| `C14.unforgeable_text` | Classical.choice, Quot.sound, propext |  |
| `C15.pae_spec` | Quot.sound, propext |  |
| `C15.pae_appends` | Quot.sound, propext |  |
| `C15.pae_slicing` | Quot.sound, propext |  |
| `C15.pae_injective` | Classical.choice, Quot.sound, propext |  |
| `C15.pae_prefix_free` | Classical.choice, Quot.sound, propext |  |
| `C16.input_injective` | Classical.choice, Quot.sound, propext | yes |
| `C16.derivation_injective` | Classical.choice, Quot.sound, propext |  |
| `C16.token_uses` | Classical.choice, Quot.sound, propext |  |
| `C16.pie_uses` | Classical.choice, Quot.sound, propext |  |
| `C16.hash_injective` | Classical.choice, Quot.sound, propext | yes |
| `C16.id_uses` | Classical.choice, Quot.sound, propext |  |
| `C16.pw_uses` | Classical.choice, Quot.sound, propext |  |
| `C16.seal_uses` | Classical.choice, Quot.sound, propext |  |
| `C16.sign_uses` | Classical.choice, Quot.sound, propext |  |
| `C17.run_ok` | Classical.choice, Quot.sound, propext |  |
| `C17.nonces` | Classical.choice, Quot.sound, propext |  |
| `C17.nonce_reuse_iff` | Classical.choice, Quot.sound, propext |  |
| `C17.nonce_only_rng` | Classical.choice, Quot.sound, propext |  |
| `C18.decrypt_raw_footer` | Classical.choice, Quot.sound, propext |  |
| `C18.verify_raw_footer` | Classical.choice, Quot.sound, propext |  |
| `C18.unit_footer` | Classical.choice, Quot.sound, propext |  |
| `C18.bytes_footer` | Classical.choice, Quot.sound, propext |  |
| `C18.json_footer` | Classical.choice, Quot.sound, propext |  |
| `C18.footer_bytes` | propext |  |
| `C18.footer_errors` | Classical.choice, Quot.sound, propext |  |
| `C18.data_json` | Classical.choice, Quot.sound, propext |  |
| `C18.stringFooter_json` | Classical.choice, Quot.sound, propext |  |
| `C18.kidFooter_json` | Classical.choice, Quot.sound, propext |  |
| `C18.kidFooter_read_iff` | Classical.choice, Quot.sound, propext |  |
| `C18.data_read_iff` | Classical.choice, Quot.sound, propext |  |
| `C18.stringFooter_read_iff` | Classical.choice, Quot.sound, propext |  |
| `C18.kidFooter_grammar` | Classical.choice, Quot.sound, propext |  |
| `C18.json_footer_read_iff` | Classical.choice, Quot.sound, propext |  |
| `C19.decrypt_footer` | Classical.choice, Quot.sound, propext |  |
| `C19.verify_footer` | Classical.choice, Quot.sound, propext |  |
| `C19.encrypt_footer` | Classical.choice, Quot.sound, propext |  |
| `C19.sign_footer` | Classical.choice, Quot.sound, propext |  |
| `C19.builder_contents` | Classical.choice, Quot.sound, propext |  |
| `C19.no_footer_text` | Classical.choice, Quot.sound, propext |  |
| `C20.encrypt_is_empty_assertion` | Classical.choice, Quot.sound, propext |  |
| `C20.sign_is_empty_assertion` | Classical.choice, Quot.sound, propext |  |
| `C20.encrypt_spec` | Classical.choice, Quot.sound, propext |  |
| `C20.encrypt_spec_v3` | Classical.choice, Quot.sound, propext |  |
| `C20.decrypt_spec` | Classical.choice, Quot.sound, propext |  |
| `C20.verify_spec` | Classical.choice, Quot.sound, propext |  |
| `C20.sign_spec` | Classical.choice, Quot.sound, propext |  |
| `C21.local_layout` | Classical.choice, Quot.sound, propext |  |
| `C21.public_layout` | Classical.choice, Quot.sound, propext |  |
| `C22.encode_is_base64url` | Classical.choice, Quot.sound, propext |  |
| `C22.encode_into` | Classical.choice, Quot.sound, propext |  |
| `C22.decode_iff` | Classical.choice, Quot.sound, propext |  |
| `C22.decode_into_iff` | Classical.choice, Quot.sound, propext |  |
| `C22.canonical` | Classical.choice, Quot.sound, propext |  |
| `C22.injective` | Classical.choice, Quot.sound, propext |  |
| `C22.text_length` | Classical.choice, Quot.sound, propext |  |
| `C22.accepts_iff` | Classical.choice, Quot.sound, propext |  |
| `C23.write_b64` | Classical.choice, Quot.sound, propext |  |
| `C24.read_b64_iff` | Classical.choice, Quot.sound, propext |  |
| `C24.read_b64_other` | Classical.choice, Quot.sound, propext |  |
| `C24.length_check_harmless` | Classical.choice, Quot.sound, propext |  |
| `C24.read_write` | Classical.choice, Quot.sound, propext |  |
| `C25.plaintext_roundtrip` | Classical.choice, Quot.sound, propext | yes |
| `C25.text_length` | Classical.choice, Quot.sound, propext |  |
| `C26.v3_public_not_canonical` | Classical.choice, Quot.sound, propext |  |
| `C26.plaintext_canonical` | Classical.choice, Quot.sound, propext | yes |
| `C26.v3_public_canonical` | Classical.choice, Quot.sound, propext | yes |
| `C26.v3_public_accepts_iff` | Classical.choice, Quot.sound, propext | yes |
| `C27.from_to` | Quot.sound, propext | yes |
| `C27.to_from` | Quot.sound, propext | yes |
| `C27.v3_public_to_from` | Quot.sound, propext | yes |
| `C27.local_from_bytes` | Quot.sound, propext |  |
| `C27.v4_secret_from_seed` | Quot.sound, propext |  |
| `C27.v4_secret_from_keypair` | Quot.sound, propext | yes |
| `C27.v4_public_from_bytes` | Quot.sound, propext | yes |
| `C27.v3_secret_from_bytes` | Quot.sound, propext |  |
| `C27.constructors_invert` | Quot.sound, propext | yes |
| `C27.beq_iff_bytes` | Quot.sound, propext |  |
| `C27.beq_iff_eq` | Quot.sound, propext | yes |
| `C27.beq_equivalence` | Quot.sound, propext |  |
| `C27.local_random` | Quot.sound, propext |  |
| `C27.v4_secret_random` | Quot.sound, propext |  |
| `C27.p384Random_spec` | Quot.sound, propext |  |
| `C27.v3_secret_random` | Quot.sound, propext |  |
| `C28.v4_secret_iff` | Quot.sound, propext | yes |
| `C28.v4_public_iff` | Quot.sound, propext |  |
| `C28.v3_secret_iff` | Quot.sound, propext |  |
| `C28.constructors_total` | Classical.choice, Quot.sound, propext |  |
| `C28.v4_secret_invalid` | Classical.choice, Quot.sound, propext | yes |
| `C28.v4_public_invalid` | Classical.choice, Quot.sound, propext |  |
| `C28.v3_secret_invalid` | Classical.choice, Quot.sound, propext |  |
| `C28.plaintext_invalid_key` | Classical.choice, Quot.sound, propext |  |
| `C28.v3_random_valid` | Quot.sound, propext |  |
| `C29.id_roundtrip` | Classical.choice, Quot.sound, propext |  |
| `C29.id_canonical` | Classical.choice, Quot.sound, propext |  |
| `C29.id_accepts_iff` | Classical.choice, Quot.sound, propext |  |
| `C29.debug_is_display` | Classical.choice, Quot.sound, propext |  |
| `C29.id_length` | Classical.choice, Quot.sound, propext |  |
| `C30.fits` | Classical.choice, Quot.sound, propext |  |
| `C30.idInput_eq` | Classical.choice, Quot.sound, propext |  |
| `C30.id_spec` | Classical.choice, Quot.sound, propext |  |
| `C30.id_text` | Classical.choice, Quot.sound, propext |  |
| `C30.id_of_plaintext` | Classical.choice, Quot.sound, propext |  |
| `C31.eq_iff_text` | Classical.choice, Quot.sound, propext |  |
| `C31.eq_iff` | propext |  |
| `C31.cmp_lt_iff` | propext |  |
| `C31.cmp_eq_iff` | propext |  |
| `C31.cmp_swap` | propext |  |
| `C31.cmp_trans` | Quot.sound, propext |  |
| `C31.cmp_total` | propext |  |
| `C31.partialCmp_eq` | none |  |
| `C31.hash_iff` | propext |  |
| `C32.hashed_inj` | Classical.choice, Quot.sound, propext | yes |
| `C32.same_id` | Classical.choice, Quot.sound, propext | yes |
| `C32.text_type_unique` | Classical.choice, Quot.sound, propext |  |
| `C32.same_id_text` | Classical.choice, Quot.sound, propext | yes |
| `C33.pie_roundtrip` | Classical.choice, Quot.sound, propext | yes |
| `C33.pie_roundtrip_direct` | Classical.choice, Quot.sound, propext | yes |
| `C33.wrap_outcome` | Classical.choice, Quot.sound, propext |  |
| `C33.pie_text_iff` | Classical.choice, Quot.sound, propext |  |
| `C34.v3_ctr_deviates_aes` | Classical.choice, Quot.sound, propext |  |
| `C34.pieWrap_be64_iff` | Classical.choice, Quot.sound, propext |  |
| `C34.v4_wrap` | Classical.choice, Quot.sound, propext |  |
| `C34.v3_wrap` | Classical.choice, Quot.sound, propext |  |
| `C34.v3_standard_iff` | Classical.choice, Quot.sound, propext |  |
| `C34.v3_wrap_standard` | Classical.choice, Quot.sound, propext |  |
| `C34.v3_ctr_deviates` | Classical.choice, Quot.sound, propext |  |
| `C34.v4_unwrap` | Classical.choice, Quot.sound, propext |  |
| `C34.v3_unwrap` | Classical.choice, Quot.sound, propext |  |
| `C34.v3_unwrap_standard` | Classical.choice, Quot.sound, propext |  |
| `C34.wrap_layout` | Classical.choice, Quot.sound, propext |  |
| `C35.pieTagged_inj` | Classical.choice, Quot.sound, propext |  |
| `C35.authentic_iff` | Classical.choice, Quot.sound, propext |  |
| `C35.unauthentic` | Classical.choice, Quot.sound, propext |  |
| `C35.wrong_tag` | Classical.choice, Quot.sound, propext |  |
| `C35.tampered` | Classical.choice, Quot.sound, propext |  |
| `C35.wrong_key` | Classical.choice, Quot.sound, propext |  |
| `C35.unforgeable` | Classical.choice, Quot.sound, propext |  |
| `C35.history_key` | Classical.choice, Quot.sound, propext | yes |
| `C36.unwrap_total` | Classical.choice, Quot.sound, propext |  |
| `C36.local_unwrap_total` | Classical.choice, Quot.sound, propext |  |
| `C36.text_unwrap_total` | Classical.choice, Quot.sound, propext |  |
| `C37.pw_roundtrip` | Classical.choice, Quot.sound, propext | yes |
| `C37.pw_roundtrip_direct` | Classical.choice, Quot.sound, propext | yes |
| `C37.wrap_outcome` | Classical.choice, Quot.sound, propext |  |
| `C37.default_roundtrip` | Classical.choice, Quot.sound, propext | yes |
| `C38.v3_ctr_reached` | Classical.choice, Quot.sound, propext |  |
| `C38.pwWrap_be64_iff` | Classical.choice, Quot.sound, propext |  |
| `C38.v4_wrap` | Classical.choice, Quot.sound, propext |  |
| `C38.v3_wrap` | Classical.choice, Quot.sound, propext |  |
| `C38.v3_standard_iff` | Classical.choice, Quot.sound, propext |  |
| `C38.v3_wrap_standard` | Classical.choice, Quot.sound, propext |  |
| `C38.v3_ctr_deviates` | Classical.choice, Quot.sound, propext |  |
| `C38.v4_unwrap` | Classical.choice, Quot.sound, propext |  |
| `C38.v3_unwrap` | Classical.choice, Quot.sound, propext |  |
| `C38.v3_unwrap_standard` | Classical.choice, Quot.sound, propext |  |
| `C39.settings_preserved` | Classical.choice, Quot.sound, propext |  |
| `C39.v3_settings_reported` | Classical.choice, Quot.sound, propext |  |
| `C39.v4_settings_reported` | Classical.choice, Quot.sound, propext |  |
| `C39.unwrap_uses_settings` | Classical.choice, Quot.sound, propext |  |
| `C39.v4_settings_refuted` | Classical.choice, Quot.sound, propext |  |
| `C39.v3_defaults` | Classical.choice, Quot.sound, propext |  |
| `C39.v4_defaults` | Classical.choice, Quot.sound, propext |  |
| `C40.v3_canonical` | Classical.choice, Quot.sound, propext |  |
| `C40.v3_injective` | Classical.choice, Quot.sound, propext |  |
| `C40.v4_texts` | Classical.choice, Quot.sound, propext |  |
| `C40.v4_printed_iff` | Classical.choice, Quot.sound, propext |  |
| `C40.v4_not_canonical` | Classical.choice, Quot.sound, propext |  |
| `C40.parse_display` | Classical.choice, Quot.sound, propext |  |
| `C40.text_length` | Classical.choice, Quot.sound, propext |  |
| `C41.unwrap_panic_iff` | Classical.choice, Quot.sound, propext |  |
| `C41.unwrap_outcomes` | Classical.choice, Quot.sound, propext |  |
| `C41.v3_unwrap_total` | Classical.choice, Quot.sound, propext |  |
| `C41.v4_unwrap_total` | Classical.choice, Quot.sound, propext |  |
| `C41.no_panic_refuted` | Classical.choice, Quot.sound, propext |  |
| `C42.pwTagged_inj` | Classical.choice, Quot.sound, propext |  |
| `C42.authentic_iff` | Classical.choice, Quot.sound, propext |  |
| `C42.unauthentic` | Classical.choice, Quot.sound, propext |  |
| `C42.unauthentic_exact` | Classical.choice, Quot.sound, propext |  |
| `C42.wrong_tag` | Classical.choice, Quot.sound, propext |  |
| `C42.tampered` | Classical.choice, Quot.sound, propext |  |
| `C42.wrong_password` | Classical.choice, Quot.sound, propext |  |
| `C42.v3_text_tampered` | Classical.choice, Quot.sound, propext |  |
| `C42.v4_text_tampered` | Classical.choice, Quot.sound, propext |  |
| `C42.v4_text_malleable` | Classical.choice, Quot.sound, propext |  |
| `C42.unforgeable` | Classical.choice, Quot.sound, propext |  |
| `C42.history_key` | Classical.choice, Quot.sound, propext | yes |
| `C43.seal_outcome` | Classical.choice, Quot.sound, propext |  |
| `C43.shared_secret` | Classical.choice, Quot.sound, propext | yes |
| `C43.seal_roundtrip_direct` | Classical.choice, Quot.sound, propext | yes |
| `C43.seal_roundtrip` | Classical.choice, Quot.sound, propext | yes |
| `C43.seal_text_iff` | Classical.choice, Quot.sound, propext |  |
| `C44.v4_seal_refuted` | Classical.choice, Quot.sound, propext |  |
| `C44.v3_ctr_deviates_aes` | Classical.choice, Quot.sound, propext |  |
| `C44.v4_shared_iff` | Classical.choice, Quot.sound, propext |  |
| `C44.v4_seal_standard` | Classical.choice, Quot.sound, propext |  |
| `C44.multiple_public` | Classical.choice, Quot.sound, propext |  |
| `C44.sealBytes_be64_iff` | Classical.choice, Quot.sound, propext |  |
| `C44.v3_seal` | Classical.choice, Quot.sound, propext |  |
| `C44.v3_standard_iff` | Classical.choice, Quot.sound, propext |  |
| `C44.v3_seal_standard` | Classical.choice, Quot.sound, propext |  |
| `C44.v3_ctr_deviates` | Classical.choice, Quot.sound, propext |  |
| `C44.v4_seal_reduced` | Classical.choice, Quot.sound, propext | yes |
| `C44.v4_seal_torsion_free` | Classical.choice, Quot.sound, propext | yes |
| `C44.v4_seal` | Classical.choice, Quot.sound, propext | yes |
| `C44.v3_unseal` | Classical.choice, Quot.sound, propext |  |
| `C44.v3_unseal_standard` | Classical.choice, Quot.sound, propext |  |
| `C44.v4_unseal_reduced` | Classical.choice, Quot.sound, propext |  |
| `C44.v4_unseal_torsion_free` | Classical.choice, Quot.sound, propext |  |
| `C44.v4_unseal_honest` | Classical.choice, Quot.sound, propext | yes |
| `C45.sealTagged_inj` | Classical.choice, Quot.sound, propext |  |
| `C45.authentic_iff` | Classical.choice, Quot.sound, propext |  |
| `C45.outcomes` | Classical.choice, Quot.sound, propext |  |
| `C45.wrong_tag` | Classical.choice, Quot.sound, propext |  |
| `C45.tampered` | Classical.choice, Quot.sound, propext |  |
| `C45.wrong_recipient` | Classical.choice, Quot.sound, propext |  |
| `C45.unforgeable` | Classical.choice, Quot.sound, propext | yes |
| `C45.history_key` | Classical.choice, Quot.sound, propext | yes |
| `C45.text_tampered` | Classical.choice, Quot.sound, propext |  |
| `C46.panic_text` | Classical.choice, Quot.sound, propext |  |
| `C46.unseal_panic_iff` | Classical.choice, Quot.sound, propext |  |
| `C46.unseal_outcomes` | Classical.choice, Quot.sound, propext |  |
| `C46.v4_unseal_total` | Classical.choice, Quot.sound, propext |  |
| `C46.no_panic_refuted` | Classical.choice, Quot.sound, propext |  |
| `C47.paserkText_inj` | Classical.choice, Quot.sound, propext |  |
| `C47.paserk_unique` | Classical.choice, Quot.sound, propext |  |
| `C47.token_not_paserk` | Classical.choice, Quot.sound, propext |  |
| `C48.token_parse` | Classical.choice, Quot.sound, propext |  |
| `C48.plaintext_parse` | Classical.choice, Quot.sound, propext |  |
| `C48.id_parse` | Classical.choice, Quot.sound, propext |  |
| `C48.pie_parse` | Classical.choice, Quot.sound, propext |  |
| `C48.pw_parse` | Classical.choice, Quot.sound, propext |  |
| `C48.seal_parse` | Classical.choice, Quot.sound, propext |  |
| `C49.token` | Classical.choice, Quot.sound, propext |  |
| `C49.plaintext` | Classical.choice, Quot.sound, propext |  |
| `C49.keyId` | Classical.choice, Quot.sound, propext |  |
| `C49.pie` | Classical.choice, Quot.sound, propext |  |
| `C49.pw` | Classical.choice, Quot.sound, propext |  |
| `C49.sealed` | Classical.choice, Quot.sound, propext |  |
| `C49.serialize_is_display` | Classical.choice, Quot.sound, propext |  |
| `C49.roundtrip` | Classical.choice, Quot.sound, propext | yes |
| `C50.get_insert` | propext |  |
| `C50.ofKeys_get` | Classical.choice, Quot.sound, propext |  |
| `C50.ofKeys_mem` | Classical.choice, Quot.sound, propext |  |
| `C50.lookup` | Classical.choice, Quot.sound, propext |  |
| `C50.rotation` | Classical.choice, Quot.sound, propext | yes |
| `C50.distinct_or_collision` | Classical.choice, Quot.sound, propext | yes |
| `C50.verified_by_named_key` | Classical.choice, Quot.sound, propext |  |
| `C50.documented_flow` | Classical.choice, Quot.sound, propext | yes |
| `C51.step_eq` | Classical.choice, Quot.sound, propext | yes |
| `C51.travel_eq` | Classical.choice, Quot.sound, propext | yes |
| `C51.recovered_decrypts` | Classical.choice, Quot.sound, propext | yes |
| `C51.recovered_signs` | Classical.choice, Quot.sound, propext | yes |
| `C51.recovered_verifies` | Classical.choice, Quot.sound, propext | yes |
| `C51.steps_exist` | Classical.choice, Quot.sound, propext | yes |
| `C51.seal_step_exists` | Classical.choice, Quot.sound, propext | yes |
| `C52.debug_constant` | Classical.choice, Quot.sound, propext |  |
| `C53.source_iff` | propext |  |
| `C53.display_constant` | propext |  |
| `C53.display_payload` | propext |  |
| `C54.json_footer_ok` | propext |  |
| `C54.local_harness` | Classical.choice, Quot.sound, propext |  |
| `C54.public_harness` | Classical.choice, Quot.sound, propext | yes |
| `C54.public_harness_v4` | Classical.choice, Quot.sound, propext | yes |
| `C54.wrap_harness` | Classical.choice, Quot.sound, propext | yes |
| `C54.seal_v3_harness` | Classical.choice, Quot.sound, propext | yes |
| `C54.seal_v4_harness` | Classical.choice, Quot.sound, propext | yes |
| `C54.parse_harness` | Classical.choice, Quot.sound, propext |  |
| `C55.genericDecrypt_same` | Classical.choice, Quot.sound, propext |  |
| `C55.decrypt_same` | Classical.choice, Quot.sound, propext |  |
| `C55.pie_unwrap_same` | Classical.choice, Quot.sound, propext |  |
| `C55.pw_unwrap_same` | Classical.choice, Quot.sound, propext |  |
| `C55.verify_same` | Classical.choice, Quot.sound, propext |  |
| `C55.unseal_same` | Classical.choice, Quot.sound, propext |  |
| `C55.decrypt_steps` | Classical.choice, Quot.sound, propext |  |
| `C55.decrypt_trace` | Classical.choice, Quot.sound, propext |  |
| `C55.decrypt_reject` | Classical.choice, Quot.sound, propext |  |
| `C55.verify_steps` | Classical.choice, Quot.sound, propext |  |
| `C55.verify_trace` | Classical.choice, Quot.sound, propext |  |
| `C55.verify_reject` | Classical.choice, Quot.sound, propext |  |
| `C55.pie_steps` | Classical.choice, Quot.sound, propext |  |
| `C55.pie_trace` | Classical.choice, Quot.sound, propext |  |
| `C55.pw_steps` | Classical.choice, Quot.sound, propext |  |
| `C55.pw_trace` | Classical.choice, Quot.sound, propext |  |
| `C55.unseal_steps_v3` | Classical.choice, Quot.sound, propext |  |
| `C55.unseal_steps_v4` | Classical.choice, Quot.sound, propext |  |
| `C55.unseal_trace` | Classical.choice, Quot.sound, propext |  |
| `C56.token_prints` | Classical.choice, Quot.sound, propext |  |
| `C56.plaintext_prints` | Classical.choice, Quot.sound, propext |  |
| `C56.id_prints` | Classical.choice, Quot.sound, propext |  |
| `C56.pie_prints` | Classical.choice, Quot.sound, propext |  |
| `C56.pw_prints` | Classical.choice, Quot.sound, propext |  |
| `C56.seal_prints` | Classical.choice, Quot.sound, propext |  |
| `C56.to_string` | propext |  |
| `C56.faithful` | propext |  |
| `C56.no_panic` | propext |  |
| `C56.total` | propext |  |
| `C56.options_ignored` | none |  |
| `C56.bounded_iff` | Quot.sound, propext |  |
| `C56.twice` | propext |  |
| `C56.json` | Quot.sound, propext |  |
| `C56.json_plain` | Classical.choice, Quot.sound, propext |  |
| `C56.plain_paserk` | Classical.choice, Quot.sound, propext |  |
| `C56.plain_token` | Classical.choice, Quot.sound, propext |  |
| `C56.json_roundtrip` | Classical.choice, Quot.sound, propext |  |
| `C56.json_read_iff` | Classical.choice, Quot.sound, propext |  |
| `C56.expecting` | Classical.choice, Quot.sound, propext |  |
| `C57.left_or_right` | Classical.choice, Quot.sound, propext |  |
| `C57.one_key_each` | Classical.choice, Quot.sound, propext |  |
| `C57.one` | Classical.choice, Quot.sound, propext |  |
| `C57.own_key_only` | Classical.choice, Quot.sound, propext |  |
| `C57.token_text_length` | Classical.choice, Quot.sound, propext |  |
| `C57.token_length_leaks` | Classical.choice, Quot.sound, propext |  |
| `C57.nonce_reuse_leaks` | Classical.choice, Quot.sound, propext |  |
| `C58.local_key` | Quot.sound, propext |  |
| `C58.v4_secret_key` | Quot.sound, propext |  |
| `C58.v3_secret_key` | Quot.sound, propext |  |
| `C58.encrypt` | Classical.choice, Quot.sound, propext |  |
| `C58.wrap_pie` | Classical.choice, Quot.sound, propext |  |
| `C58.wrap_pw` | Classical.choice, Quot.sound, propext |  |
| `C58.seal_v4` | Classical.choice, Quot.sound, propext |  |
| `C58.seal_v3` | Classical.choice, Quot.sound, propext |  |
| `C58.local_key_consumer` | Quot.sound, propext |  |
| `C58.secret_key_consumer` | Quot.sound, propext |  |
| `C58.encrypt_consumer` | Classical.choice, Quot.sound, propext |  |
| `C58.wrap_pie_consumer` | Classical.choice, Quot.sound, propext |  |
| `C58.wrap_pw_consumer` | Classical.choice, Quot.sound, propext |  |
| `C58.seal_consumer` | Classical.choice, Quot.sound, propext |  |
| `C58.segments` | Quot.sound, propext |  |
| `C58.short_panics` | Classical.choice, Quot.sound, propext |  |
| `C58.fake_fill` | Quot.sound, propext |  |
| `C58.fake_delivers` | Quot.sound, propext |  |
| `C58.fake_op` | Quot.sound, propext |  |
| `C58.fake_arbitrary` | Quot.sound, propext |  |
| `C58.arbitrary_keys` | Quot.sound, propext |  |
| `C60.decrypt_other_key` | Classical.choice, Quot.sound, propext |  |
| `C60.verify_other_key` | Classical.choice, Quot.sound, propext | yes |
| `C61.token_unforgeable` | Classical.choice, Quot.sound, propext |  |
| `C61.wrap_unforgeable` | Classical.choice, Quot.sound, propext |  |
| `C62.public_roundtrip` | Classical.choice, Quot.sound, propext |  |
| `C62.v4_public_roundtrip` | Classical.choice, Quot.sound, propext |  |
| `C62.plaintext_roundtrip` | Classical.choice, Quot.sound, propext |  |
| `C62.pie_roundtrip` | Classical.choice, Quot.sound, propext |  |
| `C62.pw_roundtrip` | Classical.choice, Quot.sound, propext |  |
| `C62.seal_roundtrip` | Classical.choice, Quot.sound, propext |  |
| `C62.travel_eq` | Classical.choice, Quot.sound, propext |  |
| `C63.v3_malleable` | Classical.choice, Quot.sound, propext |  |
| `C63.v3_malleable_text` | Classical.choice, Quot.sound, propext |  |
| `C63.v4_second_half` | Classical.choice, Quot.sound, propext |  |
| `C64.weak_key` | Classical.choice, Quot.sound, propext |  |
| `C64.weak_key_text` | Classical.choice, Quot.sound, propext |  |
| `C65.v3_publicKey_inj` | Classical.choice, Quot.sound, propext |  |
| `C65.v3_public_text_inj` | Classical.choice, Quot.sound, propext |  |
| `C65.v3_publicKey_bijective` | Classical.choice, Quot.sound, propext |  |
| `C66.secret_file_iff` | Classical.choice, Quot.sound, propext |  |
| `C66.public_file_iff` | Classical.choice, Quot.sound, propext |  |
| `C66.public_file_only` | Classical.choice, Quot.sound, propext |  |
| `C66.secret_file_only` | Classical.choice, Quot.sound, propext |  |
| `C66.other_label` | Classical.choice, Quot.sound, propext |  |
| `C66.curve_ignored` | Classical.choice, Quot.sound, propext |  |
| `C66.files_exist` | Classical.choice, Quot.sound, propext |  |
| `C66.sec1_iff` | Classical.choice, Quot.sound, propext |  |
| `C66.public_point` | Classical.choice, Quot.sound, propext |  |
| `C66.public_file` | Classical.choice, Quot.sound, propext |  |
| `C66.secret_file` | Classical.choice, Quot.sound, propext |  |
| `C67.accepted` | Classical.choice, Quot.sound, propext |  |
| `C67.printed` | Classical.choice, Quot.sound, propext |  |
| `C67.token` | Classical.choice, Quot.sound, propext |  |
| `C68.v4_publicKey_iff` | Classical.choice, Quot.sound, propext |  |
| `C68.v4_public_text_iff` | Classical.choice, Quot.sound, propext |  |
| `C68.v4_recipient_iff` | Classical.choice, Quot.sound, propext |  |
| `C68.v3_recipient_inj` | Classical.choice, Quot.sound, propext |  |
| `C69.v3_ephemeral_iff` | Classical.choice, Quot.sound, propext |  |
| `C69.v4_ephemeral_iff` | Classical.choice, Quot.sound, propext |  |
| `C69.v3_texts_differ` | Classical.choice, Quot.sound, propext |  |
| `C69.v4_texts_differ` | Classical.choice, Quot.sound, propext |  |
| `C70.small_order_recipient` | Classical.choice, Quot.sound, propext |  |
| `C70.weak_recipient` | Classical.choice, Quot.sound, propext |  |
| `C71.same_unwrap` | Classical.choice, Quot.sound, propext |  |
| `C71.same_wrap` | Classical.choice, Quot.sound, propext |  |
| `C71.trailing_zeros` | Classical.choice, Quot.sound, propext |  |
| `C71.long_password` | Classical.choice, Quot.sound, propext |  |
| `C71.second_password` | Classical.choice, Quot.sound, propext |  |
| `C71.hmacKey_short_iff` | Quot.sound, propext |  |
| `C71.v4_inputs_differ` | Classical.choice, Quot.sound, propext |  |
| `C71.v4_through_one_hash` | Classical.choice, Quot.sound, propext |  |
| `C71.v3_rfc8018` | Classical.choice, Quot.sound, propext |  |
| `C71.v3_zero_iterations` | Classical.choice, Quot.sound, propext |  |
| `C72.v4_one_message` | Classical.choice, Quot.sound, propext |  |
| `C72.v3_one_message` | Classical.choice, Quot.sound, propext |  |
| `C72.honest_key` | Classical.choice, Quot.sound, propext |  |
| `C72.small_order_parses` | Classical.choice, Quot.sound, propext |  |
| `C72.small_order_forgery` | Classical.choice, Quot.sound, propext |  |
| `C73.local_commits` | Classical.choice, Quot.sound, propext |  |
| `C73.local_other_key` | Classical.choice, Quot.sound, propext |  |
| `C73.pie_commits` | Classical.choice, Quot.sound, propext |  |
| `C73.pie_other_key` | Classical.choice, Quot.sound, propext |  |
| `C73.seal_commits` | Classical.choice, Quot.sound, propext |  |
| `C73.pw_commits` | Classical.choice, Quot.sound, propext |  |
| `C74.run_local` | Classical.choice, Quot.sound, propext |  |
| `C74.chosen_ciphertext` | Classical.choice, Quot.sound, propext |  |
| `C74.same_text` | Classical.choice, Quot.sound, propext |  |
| `C74.opened_is_forgery` | Classical.choice, Quot.sound, propext |  |
| `C75.nonces_are_blocks` | Classical.choice, Quot.sound, propext |  |
| `C75.card_blocks` | Classical.choice, Quot.sound, propext |  |
| `C75.repeats` | Classical.choice, Quot.sound, propext |  |
| `C75.repeats_practical` | Classical.choice, Quot.sound, propext |  |
| `C75.distinct_exactly` | Classical.choice, Quot.sound, propext |  |
| `C76.tags` | Classical.choice, Quot.sound, propext |  |
| `C76.token` | Classical.choice, Quot.sound, propext |  |
| `C76.pie` | Classical.choice, Quot.sound, propext |  |
| `C76.pw` | Classical.choice, Quot.sound, propext |  |
| `C76.sealed` | Classical.choice, Quot.sound, propext |  |
| `C77.decrypt_work` | Classical.choice, Quot.sound, propext |  |
| `C77.verify_work` | Classical.choice, Quot.sound, propext |  |
| `C77.pie_work` | Classical.choice, Quot.sound, propext |  |
| `C77.unseal_work` | Classical.choice, Quot.sound, propext |  |
| `C77.pw_work` | Classical.choice, Quot.sound, propext |  |
| `C77.pw_text_chooses` | Classical.choice, Quot.sound, propext |  |
| `C78.in_force_iff` | Classical.choice, Quot.sound, propext |  |
| `C78.accepted` | Classical.choice, Quot.sound, propext |  |
| `C78.not_in_force` | Classical.choice, Quot.sound, propext |  |
| `C78.same_key_same_answer` | Classical.choice, Quot.sound, propext |  |
| `C78.signed_accepted` | Classical.choice, Quot.sound, propext | yes |
| `C79.record_read_iff` | Classical.choice, Quot.sound, propext |  |
| `C79.record_written` | Classical.choice, Quot.sound, propext |  |
| `C79.record_refused` | Classical.choice, Quot.sound, propext |  |
| `C79.claims_refused` | Classical.choice, Quot.sound, propext |  |
| `C79.read_iff` | Classical.choice, Quot.sound, propext |  |
| `C79.one_meaning` | Classical.choice, Quot.sound, propext |  |
| `C79.written` | Classical.choice, Quot.sound, propext |  |
| `C79.written_only` | Classical.choice, Quot.sound, propext |  |
| `C79.unwritten_unsigned` | Classical.choice, Quot.sound, propext |  |
| `C79.documented_program` | Classical.choice, Quot.sound, propext | yes |
| `C79.accepted_spells` | Classical.choice, Quot.sound, propext |  |
| `C79.claims_were_issued` | Classical.choice, Quot.sound, propext |  |
| `C80.encrypt_within` | Classical.choice, Quot.sound, propext |  |
| `C80.encrypt_beyond` | Classical.choice, Quot.sound, propext |  |
| `C80.decrypt_within` | Classical.choice, Quot.sound, propext |  |
| `C80.decrypt_beyond` | Classical.choice, Quot.sound, propext |  |
| `C80.roundtrip` | Classical.choice, Quot.sound, propext |  |
| `C80.v3_unlimited` | Quot.sound, propext |  |
| `C80.keys` | Classical.choice, Quot.sound, propext |  |
| `C81.forging_bound` | Classical.choice, Quot.sound, propext |  |
| `C81.own_tags` | Quot.sound, propext |  |
| `C81.bound_attained` | Classical.choice, Quot.sound, propext |  |
| `C82.advantage` | Classical.choice, Quot.sound, propext |  |
| `C82.runs` | Classical.choice, Quot.sound, propext |  |
| `C82.reached` | Classical.choice, Quot.sound, propext |  |
| `C83.advantage` | Classical.choice, Quot.sound, propext |  |
| `C83.runs` | Classical.choice, Quot.sound, propext |  |
| `C83.issued_tells` | Classical.choice, Quot.sound, propext |  |
| `C83.prober_plays` | Classical.choice, Quot.sound, propext |  |
| `C84.found` | Classical.choice, Quot.sound, propext |  |
| `C84.named` | Classical.choice, Quot.sound, propext |  |
| `C84.attained` | Classical.choice, Quot.sound, propext |  |
| `C84.untried_alike` | Classical.choice, Quot.sound, propext |  |
| `C85.collision` | Classical.choice, Quot.sound, propext |  |
| `C85.imitation` | Classical.choice, Quot.sound, propext |  |
| `C85.two_keys` | Classical.choice, Quot.sound, propext |  |
| `C85.own` | Classical.choice, Quot.sound, propext |  |
| `C86.v4_nonce` | Classical.choice, Quot.sound, propext |  |
| `C86.v3_nonce` | Classical.choice, Quot.sound, propext |  |
| `C86.v4_repeated` | Classical.choice, Quot.sound, propext |  |
| `C86.v3_repeated` | Classical.choice, Quot.sound, propext |  |
| `C87.encrypt_same` | Classical.choice, Quot.sound, propext |  |
| `C87.sign_same` | Classical.choice, Quot.sound, propext |  |
| `C87.pie_same` | Classical.choice, Quot.sound, propext |  |
| `C87.pw_same` | Classical.choice, Quot.sound, propext |  |
| `C87.seal_same` | Classical.choice, Quot.sound, propext |  |
| `C87.encrypt_steps` | Classical.choice, Quot.sound, propext |  |
| `C87.encrypt_trace` | Classical.choice, Quot.sound, propext |  |
| `C87.encrypt_visible` | Classical.choice, Quot.sound, propext |  |
| `C87.encrypt_refused` | Classical.choice, Quot.sound, propext |  |
| `C87.sign_steps` | Classical.choice, Quot.sound, propext |  |
| `C87.sign_trace` | Classical.choice, Quot.sound, propext |  |
| `C87.sign_refused` | Classical.choice, Quot.sound, propext |  |
| `C87.pie_steps` | Classical.choice, Quot.sound, propext |  |
| `C87.pie_trace` | Classical.choice, Quot.sound, propext |  |
| `C87.pw_steps` | Classical.choice, Quot.sound, propext |  |
| `C87.pw_trace` | Classical.choice, Quot.sound, propext |  |
| `C87.seal_steps_v4` | Classical.choice, Quot.sound, propext |  |
| `C87.seal_steps_v3` | Classical.choice, Quot.sound, propext |  |
| `C87.seal_trace` | Classical.choice, Quot.sound, propext |  |
| `C87.encrypt_work` | Classical.choice, Quot.sound, propext |  |
| `C87.sign_work` | Classical.choice, Quot.sound, propext |  |
| `C87.pie_work` | Classical.choice, Quot.sound, propext |  |
| `C87.pw_work` | Classical.choice, Quot.sound, propext |  |
| `C87.seal_work` | Classical.choice, Quot.sound, propext |  |
| `C88.which_key` | Classical.choice, Quot.sound, propext | yes |
| `C88.ephemeral_iff` | Classical.choice, Quot.sound, propext |  |
| `C88.asked_passive` | Classical.choice, Quot.sound, propext |  |
| `C88.solve_spec` | Classical.choice, Quot.sound, propext |  |
| `C88.which_key_diffie_hellman` | Classical.choice, Quot.sound, propext | yes |
| `C88.which_key_random_tags` | Classical.choice, Quot.sound, propext | yes |
| `C89.which_key` | Classical.choice, Quot.sound, propext | yes |
| `C89.no_forging` | Classical.choice, Quot.sound, propext |  |
| `C89.which_key_guess` | Classical.choice, Quot.sound, propext | yes |
| `C89.which_key_random_tags` | Classical.choice, Quot.sound, propext | yes |
| `C90.forge_bound` | Classical.choice, Quot.sound, propext |  |
| `C90.actual_hash` | Classical.choice, Quot.sound, propext |  |
| `C90.scalar_signs` | Classical.choice, Quot.sound, propext |  |
| `C90.knower_wins` | Classical.choice, Quot.sound, propext |  |
| `C90.knower_chance` | Classical.choice, Quot.sound, propext |  |
| `C91.accepted_iff` | Classical.choice, Quot.sound, propext |  |
| `C91.refused_iff` | Classical.choice, Quot.sound, propext |  |
| `C91.kept` | Quot.sound, propext |  |
| `C91.keys_inj` | Quot.sound, propext |  |
| `C91.stands` | Classical.choice, Quot.sound, propext |  |
| `C91.one_point` | Classical.choice, Quot.sound, propext |  |
| `C91.encodings` | Classical.choice, Quot.sound, propext |  |
| `C91.of_secret` | Classical.choice, Quot.sound, propext |  |
| `C91.seals_alike` | Classical.choice, Quot.sound, propext |  |
| `C91.v4_count` | Classical.choice, Quot.sound, propext |  |
| `C91.v3_count` | Classical.choice, Quot.sound, propext |  |
| `C91.v4_with_secret` | Classical.choice, Quot.sound, propext |  |
| `C91.v4_few` | Classical.choice, Quot.sound, propext |  |
| `C91.text_accepted_iff` | Classical.choice, Quot.sound, propext |  |
| `C91.neutral` | Classical.choice, Quot.sound, propext |  |
| `C92.repeats` | Classical.choice, Quot.sound, propext |  |
| `C92.repeats_practical` | Classical.choice, Quot.sound, propext |  |
| `C92.salts_v3` | Classical.choice, Quot.sound, propext |  |
| `C92.salts_v4` | Classical.choice, Quot.sound, propext |  |
| `C92.served` | Classical.choice, Quot.sound, propext |  |
| `C92.two_keys` | Classical.choice, Quot.sound, propext |  |
| `C93.advantage` | Classical.choice, Quot.sound, propext |  |
| `C93.advantage_practical` | Classical.choice, Quot.sound, propext |  |
| `C93.distinct_nonces` | Classical.choice, Quot.sound, propext |  |
| `C93.unlinkable` | Classical.choice, Quot.sound, propext |  |
| `C93.runs` | Classical.choice, Quot.sound, propext |  |
| `C93.idealised` | Classical.choice, Quot.sound, propext |  |
| `C94.advantage` | Classical.choice, Quot.sound, propext |  |
| `C94.advantage_practical` | Classical.choice, Quot.sound, propext |  |
| `C94.runs` | Classical.choice, Quot.sound, propext |  |
| `C95.forging_bound` | Classical.choice, Quot.sound, propext |  |
| `C95.misuse_bound` | Classical.choice, Quot.sound, propext |  |
| `C95.one_key` | Classical.choice, Quot.sound, propext |  |
| `C96.advantage` | Classical.choice, Quot.sound, propext |  |
| `C96.advantage_practical` | Classical.choice, Quot.sound, propext |  |
| `C96.runs` | Classical.choice, Quot.sound, propext |  |
| `C96.prober_plays` | Classical.choice, Quot.sound, propext |  |
| `C97.which_recipient` | Classical.choice, Quot.sound, propext | yes |
| `C97.which_recipient_diffie_hellman` | Classical.choice, Quot.sound, propext | yes |
| `C97.which_recipient_random_tags` | Classical.choice, Quot.sound, propext | yes |
| `C98.which_many` | Classical.choice, Quot.sound, propext | yes |
| `C98.which_many_diffie_hellman` | Classical.choice, Quot.sound, propext | yes |
| `C98.which_many_random_tags` | Classical.choice, Quot.sound, propext | yes |
| `C98.good_tapes_v4` | Classical.choice, Quot.sound, propext |  |
| `C98.good_tapes_v3` | Classical.choice, Quot.sound, propext |  |
| `C98.exist_good_tapes` | Classical.choice, Quot.sound, propext |  |
| `C99.advantage` | Classical.choice, Quot.sound, propext |  |
| `C99.advantage_practical` | Classical.choice, Quot.sound, propext |  |
| `C99.runs` | Classical.choice, Quot.sound, propext |  |
| `C100.advantage` | Classical.choice, Quot.sound, propext |  |
| `C100.unopened` | Classical.choice, Quot.sound, propext |  |
| `C100.advantage_practical` | Classical.choice, Quot.sound, propext |  |
| `C100.runs` | Classical.choice, Quot.sound, propext |  |
| `C101.advantage` | Classical.choice, Quot.sound, propext |  |
| `C101.key_found` | Classical.choice, Quot.sound, propext |  |
| `C101.unopened` | Classical.choice, Quot.sound, propext |  |
| `C101.advantage_practical` | Classical.choice, Quot.sound, propext |  |
| `C101.runs` | Classical.choice, Quot.sound, propext |  |
| `C102.advantage` | Classical.choice, Quot.sound, propext | yes |
| `C102.key_met` | Classical.choice, Quot.sound, propext | yes |
| `C102.unopened` | Classical.choice, Quot.sound, propext | yes |
| `C102.secret_computed` | Classical.choice, Quot.sound, propext |  |
| `C102.secret_computed_helped` | Classical.choice, Quot.sound, propext |  |
| `C102.advantage_practical` | Classical.choice, Quot.sound, propext | yes |
| `C102.advantage_passive` | Classical.choice, Quot.sound, propext | yes |
| `C102.advantage_helped` | Classical.choice, Quot.sound, propext | yes |
| `C102.runs` | Classical.choice, Quot.sound, propext |  |
| `C102.unseals` | Classical.choice, Quot.sound, propext | yes |
| `C102.recipient` | Classical.choice, Quot.sound, propext | yes |
| `C103.advantage` | Classical.choice, Quot.sound, propext |  |
| `C103.key_met` | Classical.choice, Quot.sound, propext |  |
| `C103.unopened` | Classical.choice, Quot.sound, propext |  |
| `C103.advantage_practical` | Classical.choice, Quot.sound, propext |  |
| `C103.runs` | Classical.choice, Quot.sound, propext |  |
| `C103.recipient` | Classical.choice, Quot.sound, propext | yes |
| `C104.advantage` | Classical.choice, Quot.sound, propext |  |
| `C104.key_met` | Classical.choice, Quot.sound, propext |  |
| `C104.unopened` | Classical.choice, Quot.sound, propext |  |
| `C104.advantage_practical` | Classical.choice, Quot.sound, propext |  |
| `C104.runs` | Classical.choice, Quot.sound, propext |  |
| `C105.advantage` | Classical.choice, Quot.sound, propext |  |
| `C105.key_met` | Classical.choice, Quot.sound, propext |  |
| `C105.unopened` | Classical.choice, Quot.sound, propext |  |
| `C105.advantage_practical` | Classical.choice, Quot.sound, propext |  |
| `C105.told` | Classical.choice, Quot.sound, propext |  |
| `C105.runs` | Classical.choice, Quot.sound, propext |  |
| `C106.advantage` | Classical.choice, Quot.sound, propext |  |
| `C106.key_met` | Classical.choice, Quot.sound, propext |  |
| `C106.unopened` | Classical.choice, Quot.sound, propext |  |
| `C106.advantage_practical` | Classical.choice, Quot.sound, propext |  |
| `C106.generated` | Classical.choice, Quot.sound, propext |  |
| `C106.runs` | Classical.choice, Quot.sound, propext |  |
| `C107.either_side` | Classical.choice, Quot.sound, propext |  |
| `C107.semantic` | Classical.choice, Quot.sound, propext |  |
| `C107.semantic_practical` | Classical.choice, Quot.sound, propext |  |
| `C107.guessed` | Classical.choice, Quot.sound, propext |  |
| `C107.guessed_uneven` | Classical.choice, Quot.sound, propext |  |
| `C107.key_guessed` | Classical.choice, Quot.sound, propext |  |
| `C107.runs` | Classical.choice, Quot.sound, propext |  |
| `C108.delivered` | Classical.choice, Quot.sound, propext | yes |
| `C108.semantic` | Classical.choice, Quot.sound, propext | yes |
| `C108.semantic_unsealing` | Classical.choice, Quot.sound, propext | yes |
| `C108.guessed` | Classical.choice, Quot.sound, propext | yes |
| `C108.guessed_unsealing` | Classical.choice, Quot.sound, propext | yes |
| `C108.guessed_uneven` | Classical.choice, Quot.sound, propext | yes |
| `C109.semantic` | Classical.choice, Quot.sound, propext | yes |
| `C109.guessed` | Classical.choice, Quot.sound, propext | yes |
| `C109.opened` | Classical.choice, Quot.sound, propext | yes |
| `C110.which_key` | Classical.choice, Quot.sound, propext | yes |
| `C110.semantic` | Classical.choice, Quot.sound, propext | yes |
| `C110.guessed` | Classical.choice, Quot.sound, propext | yes |
| `C110.guessed_uneven` | Classical.choice, Quot.sound, propext | yes |
| `C110.likeliest` | Classical.choice, Quot.sound, propext |  |
| `C110.even` | Classical.choice, Quot.sound, propext |  |

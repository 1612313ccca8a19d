import Verif.Release.Props
/-!
# The headers of this library

Which headers `include/` has and what they include, line by line; blank lines are left out where there is
other text, and lines of text that follow each other are taken together (file and lines). The headers
and the system headers are numbered in the order of their paths:

* 0 `algorithm`
* 1 `array`
* 2 `async/completion_tags.hpp`
* 3 `async/concepts.hpp`
* 4 `async/connect.hpp`
* 5 `async/debug_context.hpp`
* 6 `async/incite_on.hpp`
* 7 `async/just.hpp`
* 8 `async/schedulers/trigger_scheduler.hpp`
* 9 `async/start.hpp`
* 10 `async/then.hpp`
* 11 `bit`
* 12 `boost/mp11/algorithm.hpp`
* 13 `boost/mp11/function.hpp`
* 14 `boost/mp11/list.hpp`
* 15 `boost/mp11/set.hpp`
* 16 `boost/mp11/utility.hpp`
* 17 `chrono`
* 18 `cib/cib.hpp`
* 19 `cib/top.hpp`
* 20 `climits`
* 21 `compare`
* 22 `conc/concurrency.hpp`
* 23 `concepts`
* 24 `cstddef`
* 25 `cstdint`
* 26 `cstring`
* 27 `flow/builder.hpp`
* 28 `flow/debug_builder.hpp`
* 29 `flow/dsl/par.hpp`
* 30 `flow/dsl/seq.hpp`
* 31 `flow/dsl/subgraph_identity.hpp`
* 32 `flow/dsl/walk.hpp`
* 33 `flow/flow.hpp`
* 34 `flow/func_list.hpp`
* 35 `flow/graph_builder.hpp`
* 36 `flow/graph_common.hpp`
* 37 `flow/log.hpp`
* 38 `flow/run.hpp`
* 39 `flow/service.hpp`
* 40 `flow/step.hpp`
* 41 `flow/viz_builder.hpp`
* 42 `fmt/format.h`
* 43 `functional`
* 44 `interrupt/concepts.hpp`
* 45 `interrupt/config.hpp`
* 46 `interrupt/dynamic_controller.hpp`
* 47 `interrupt/fwd.hpp`
* 48 `interrupt/impl.hpp`
* 49 `interrupt/manager.hpp`
* 50 `interrupt/policies.hpp`
* 51 `iterator`
* 52 `limits`
* 53 `log/env.hpp`
* 54 `log/flavor.hpp`
* 55 `log/level.hpp`
* 56 `log/log.hpp`
* 57 `log/module.hpp`
* 58 `log/unit.hpp`
* 59 `log_binary/catalog/arguments.hpp`
* 60 `log_binary/catalog/builder.hpp`
* 61 `log_binary/catalog/catalog.hpp`
* 62 `log_binary/catalog/encoder.hpp`
* 63 `log_binary/catalog/mipi_builder.hpp`
* 64 `log_binary/catalog/mipi_messages.hpp`
* 65 `log_binary/catalog/writer.hpp`
* 66 `log_binary/module_id.hpp`
* 67 `log_binary/string_id.hpp`
* 68 `log_binary/tags.hpp`
* 69 `log_fmt/logger.hpp`
* 70 `lookup/detail/select.hpp`
* 71 `lookup/entry.hpp`
* 72 `lookup/input.hpp`
* 73 `lookup/linear_search_lookup.hpp`
* 74 `lookup/lookup.hpp`
* 75 `lookup/pseudo_pext_lookup.hpp`
* 76 `lookup/strategies.hpp`
* 77 `lookup/strategy_failed.hpp`
* 78 `match/and.hpp`
* 79 `match/bin_op.hpp`
* 80 `match/concepts.hpp`
* 81 `match/constant.hpp`
* 82 `match/cost.hpp`
* 83 `match/implies.hpp`
* 84 `match/negate.hpp`
* 85 `match/not.hpp`
* 86 `match/ops.hpp`
* 87 `match/or.hpp`
* 88 `match/predicate.hpp`
* 89 `match/simplify.hpp`
* 90 `match/sum_of_products.hpp`
* 91 `memory`
* 92 `msg/callback.hpp`
* 93 `msg/detail/indexed_builder_common.hpp`
* 94 `msg/detail/indexed_handler_common.hpp`
* 95 `msg/detail/separate_sum_terms.hpp`
* 96 `msg/field.hpp`
* 97 `msg/field_matchers.hpp`
* 98 `msg/handler.hpp`
* 99 `msg/handler_builder.hpp`
* 100 `msg/handler_interface.hpp`
* 101 `msg/indexed_builder.hpp`
* 102 `msg/indexed_handler.hpp`
* 103 `msg/indexed_service.hpp`
* 104 `msg/message.hpp`
* 105 `msg/message_destructure.hpp`
* 106 `msg/send.hpp`
* 107 `msg/service.hpp`
* 108 `nexus/callback.hpp`
* 109 `nexus/conditionals.hpp`
* 110 `nexus/config.hpp`
* 111 `nexus/detail/components.hpp`
* 112 `nexus/detail/config_details.hpp`
* 113 `nexus/detail/config_item.hpp`
* 114 `nexus/detail/constexpr_conditional.hpp`
* 115 `nexus/detail/exports.hpp`
* 116 `nexus/detail/extend.hpp`
* 117 `nexus/detail/nexus_details.hpp`
* 118 `nexus/detail/runtime_conditional.hpp`
* 119 `nexus/extend.hpp`
* 120 `nexus/func_decl.hpp`
* 121 `nexus/nexus.hpp`
* 122 `nexus/service.hpp`
* 123 `seq/builder.hpp`
* 124 `seq/impl.hpp`
* 125 `seq/step.hpp`
* 126 `span`
* 127 `stdx/bit.hpp`
* 128 `stdx/bitset.hpp`
* 129 `stdx/compiler.hpp`
* 130 `stdx/concepts.hpp`
* 131 `stdx/ct_conversions.hpp`
* 132 `stdx/ct_format.hpp`
* 133 `stdx/ct_string.hpp`
* 134 `stdx/cx_map.hpp`
* 135 `stdx/cx_multimap.hpp`
* 136 `stdx/cx_set.hpp`
* 137 `stdx/cx_vector.hpp`
* 138 `stdx/env.hpp`
* 139 `stdx/iterator.hpp`
* 140 `stdx/panic.hpp`
* 141 `stdx/pp_map.hpp`
* 142 `stdx/ranges.hpp`
* 143 `stdx/span.hpp`
* 144 `stdx/static_assert.hpp`
* 145 `stdx/tuple.hpp`
* 146 `stdx/tuple_algorithms.hpp`
* 147 `stdx/type_traits.hpp`
* 148 `stdx/udls.hpp`
* 149 `stdx/utility.hpp`
* 150 `string_view`
* 151 `tuple`
* 152 `type_traits`
* 153 `utility`
-/
namespace Verif.Release.Repo

/-- All headers below `include/`. -/
def headers : Files :=
  [(18, [.once, .blank, .text "cib/cib.hpp 3-35", .inc 19, .inc 49, .inc 56, .inc 108, .inc 110,
      .inc 120, .inc 121, .inc 122]),
   (19, [.once, .blank, .inc 33, .inc 110, .inc 121, .text "cib/top.hpp 7-72"]),
   (27, [.once, .blank, .inc 32, .inc 35, .inc 37, .inc 133, .inc 145, .inc 12, .inc 14, .inc 152,
      .inc 153, .text "flow/builder.hpp 16-71"]),
   (28, [.once, .blank, .inc 32, .inc 36, .inc 41, .inc 133, .inc 144, .inc 145, .inc 146, .inc 15,
      .inc 152, .text "flow/debug_builder.hpp 16-73"]),
   (29, [.once, .blank, .inc 31, .inc 32, .inc 12, .inc 14, .text "flow/dsl/par.hpp 9-79"]),
   (30, [.once, .blank, .inc 31, .inc 32, .inc 118, .inc 12, .inc 14, .text "flow/dsl/seq.hpp 10-85"]),
   (31, [.once, .blank, .text "flow/dsl/subgraph_identity.hpp 3-5"]),
   (32, [.once, .blank, .inc 31, .inc 130, .inc 133, .inc 145, .inc 146, .inc 147, .inc 12, .inc 14,
      .inc 24, .inc 152, .inc 153, .text "flow/dsl/walk.hpp 18-151"]),
   (33, [.once, .blank, .inc 29, .inc 30, .inc 38, .inc 39, .inc 40]),
   (34, [.once, .blank, .inc 37, .inc 56, .inc 132, .inc 133, .inc 143, .inc 147, .inc 0, .inc 1,
      .inc 24, .inc 51, .inc 153, .text "flow/func_list.hpp 17-77"]),
   (35, [.once, .blank, .inc 32, .inc 34, .inc 36, .inc 133, .inc 135, .inc 136, .inc 137, .inc 143,
      .inc 144, .inc 146, .inc 147, .inc 149, .inc 15, .inc 0, .inc 1, .inc 24, .inc 51, .inc 153,
      .text "flow/graph_builder.hpp 25-297"]),
   (36, [.once, .blank, .inc 133, .inc 12, .inc 0, .inc 24, .inc 152,
      .text "flow/graph_common.hpp 11-104"]),
   (37, [.once, .blank, .inc 53, .inc 56, .inc 129, .inc 132, .inc 133, .inc 138, .inc 147, .inc 23,
      .inc 152, .inc 153, .text "flow/log.hpp 16-65"]),
   (38, [.once, .blank, .inc 122, .text "flow/run.hpp 5-13"]),
   (39, [.once, .blank, .inc 27, .inc 37, .inc 133, .inc 140, .text "flow/service.hpp 9-26"]),
   (40, [.once, .blank, .inc 31, .inc 37, .inc 118, .inc 120, .inc 133, .inc 147, .inc 152,
      .text "flow/step.hpp 13-95"]),
   (41, [.once, .blank, .inc 32, .inc 36, .inc 40, .inc 133, .inc 145, .inc 146, .inc 149, .inc 0,
      .inc 150, .inc 152, .inc 153, .text "flow/viz_builder.hpp 17-187"]),
   (44, [.once, .blank, .inc 47, .inc 50, .inc 131, .inc 133, .inc 145, .inc 147, .inc 23, .inc 24,
      .text "interrupt/concepts.hpp 14-112"]),
   (45, [.once, .blank, .inc 44, .inc 46, .inc 47, .inc 48, .inc 50, .inc 132, .inc 133, .inc 145,
      .inc 146, .inc 149, .inc 12, .text "interrupt/config.hpp 17-203"]),
   (46, [.once, .blank, .inc 44, .inc 50, .inc 128, .inc 130, .inc 144, .inc 145, .inc 146, .inc 147,
      .inc 149, .inc 22, .inc 12, .inc 13, .inc 14, .inc 16, .inc 152, .inc 153,
      .text "interrupt/dynamic_controller.hpp 24-532"]),
   (47, [.once, .blank, .inc 24, .inc 25, .text "interrupt/fwd.hpp 6-16"]),
   (48, [.once, .blank, .inc 44, .inc 22, .inc 12, .text "interrupt/impl.hpp 9-106"]),
   (49, [.once, .blank, .inc 44, .inc 46, .inc 50, .inc 132, .inc 145, .inc 147, .inc 148, .inc 149,
      .inc 14, .inc 0, .inc 152, .text "interrupt/manager.hpp 18-89"]),
   (50, [.once, .blank, .inc 130, .inc 145, .inc 146, .inc 147, .inc 149, .inc 14,
      .text "interrupt/policies.hpp 11-156"]),
   (53, [.once, .blank, .inc 129, .inc 138, .text "log/env.hpp 6-40"]),
   (54, [.once, .blank, .inc 149, .inc 153, .text "log/flavor.hpp 7-23"]),
   (55, [.once, .blank, .inc 25, .inc 153, .text "log/level.hpp 6-27"]),
   (56, [.once, .blank, .inc 53, .inc 54, .inc 55, .inc 57, .inc 129, .inc 132, .inc 133, .inc 140,
      .inc 141, .cond 0, .inc 145, .endif, .inc 147, .inc 149, .inc 25, .inc 153,
      .text "log/log.hpp 22-97", .cond 1, .text "log/log.hpp 99-100", .endif,
      .text "log/log.hpp 103-104", .cond 2, .text "log/log.hpp 107-115", .els,
      .text "log/log.hpp 117-133", .endif, .text "log/log.hpp 136-175"]),
   (57, [.once, .blank, .inc 53, .inc 133, .inc 153, .text "log/module.hpp 9-27"]),
   (58, [.once, .blank, .inc 149, .inc 153, .text "log/unit.hpp 7-21"]),
   (59, [.once, .blank, .inc 147, .inc 23, .inc 25, .inc 152,
      .text "log_binary/catalog/arguments.hpp 9-81"]),
   (60, [.once, .blank, .inc 63, .inc 153, .text "log_binary/catalog/builder.hpp 7-21"]),
   (61, [.once, .blank, .inc 25, .text "log_binary/catalog/catalog.hpp 5-25"]),
   (62, [.once, .blank, .inc 56, .inc 57, .inc 58, .inc 59, .inc 60, .inc 61, .inc 65, .inc 66,
      .inc 67, .inc 68, .inc 133, .inc 143, .inc 145, .inc 147, .inc 149, .inc 22, .inc 24,
      .inc 150, .inc 152, .inc 153, .text "log_binary/catalog/encoder.hpp 27-154"]),
   (63, [.once, .blank, .inc 59, .inc 61, .inc 64, .inc 127, .inc 147, .inc 149, .inc 1, .inc 23,
      .inc 24, .inc 25, .inc 26, .inc 153, .text "log_binary/catalog/mipi_builder.hpp 18-146"]),
   (64, [.once, .blank, .inc 104, .inc 25, .text "log_binary/catalog/mipi_messages.hpp 7-77"]),
   (65, [.once, .blank, .inc 63, .inc 143, .inc 25, .inc 153,
      .text "log_binary/catalog/writer.hpp 10-19"]),
   (66, [.once, .blank, .inc 53, .inc 153, .text "log_binary/module_id.hpp 7-19"]),
   (67, [.once, .blank, .inc 53, .inc 153, .text "log_binary/string_id.hpp 7-19"]),
   (68, [.once, .blank, .inc 53, .inc 133, .inc 153, .text "log_binary/tags.hpp 9-28"]),
   (69, [.once, .blank, .inc 55, .inc 56, .inc 57, .inc 127, .inc 132, .inc 146, .inc 147, .inc 42,
      .inc 1, .inc 17, .inc 150, .inc 152, .inc 153, .text "log_fmt/logger.hpp 20-90"]),
   (70, [.once, .blank, .inc 25, .inc 152, .text "lookup/detail/select.hpp 6-23", .cond 3,
      .text "lookup/detail/select.hpp 25-64", .endif, .text "lookup/detail/select.hpp 67-92"]),
   (71, [.once, .blank, .text "lookup/entry.hpp 3-11"]),
   (72, [.once, .inc 71, .blank, .inc 130, .inc 147, .inc 1, .inc 24, .inc 51, .inc 152,
      .text "lookup/input.hpp 12-37"]),
   (73, [.once, .inc 70, .inc 72, .inc 77, .inc 24, .inc 152,
      .text "lookup/linear_search_lookup.hpp 9-35"]),
   (74, [.once, .blank, .inc 72, .inc 73, .inc 75, .inc 76, .text "lookup/lookup.hpp 8-13"]),
   (75, [.once, .blank, .inc 70, .inc 72, .inc 77, .inc 127, .inc 128, .inc 139, .inc 149, .inc 0,
      .inc 1, .inc 11, .inc 24, .inc 25, .inc 51, .inc 52, .inc 151,
      .text "lookup/pseudo_pext_lookup.hpp 21-548"]),
   (76, [.once, .blank, .inc 72, .inc 77, .inc 147, .inc 0, .inc 1, .inc 51,
      .text "lookup/strategies.hpp 12-32"]),
   (77, [.once, .blank, .inc 152, .text "lookup/strategy_failed.hpp 5-12"]),
   (78, [.once, .blank, .inc 79, .inc 80, .inc 81, .inc 83, .inc 89, .inc 90, .inc 129, .inc 147,
      .inc 24, .inc 152, .inc 153, .text "match/and.hpp 17-87"]),
   (79, [.once, .blank, .inc 80, .inc 82, .inc 84, .inc 89, .inc 132, .inc 133, .inc 147,
      .text "match/bin_op.hpp 12-62"]),
   (80, [.once, .blank, .inc 23, .inc 152, .text "match/concepts.hpp 6-16"]),
   (81, [.once, .blank, .inc 80, .inc 83, .inc 84, .inc 133, .text "match/constant.hpp 9-72"]),
   (82, [.once, .blank, .inc 80, .inc 24, .inc 153, .text "match/cost.hpp 8-24"]),
   (83, [.once, .blank, .inc 80, .inc 153, .text "match/implies.hpp 7-24"]),
   (84, [.once, .blank, .inc 80, .inc 153, .text "match/negate.hpp 7-26"]),
   (85, [.once, .blank, .inc 80, .inc 81, .inc 82, .inc 84, .inc 89, .inc 90, .inc 132, .inc 147,
      .inc 152, .text "match/not.hpp 15-72"]),
   (86, [.once, .blank, .inc 78, .inc 80, .inc 83, .inc 84, .inc 85, .inc 87, .inc 89, .inc 21,
      .inc 153, .text "match/ops.hpp 14-43"]),
   (87, [.once, .blank, .inc 79, .inc 80, .inc 81, .inc 83, .inc 89, .inc 90, .inc 129, .inc 147,
      .inc 24, .inc 152, .inc 153, .text "match/or.hpp 17-75"]),
   (88, [.once, .blank, .inc 80, .inc 130, .inc 133, .inc 152, .inc 153,
      .text "match/predicate.hpp 11-38"]),
   (89, [.once, .blank, .inc 80, .inc 153, .text "match/simplify.hpp 7-24"]),
   (90, [.once, .blank, .inc 80, .inc 153, .text "match/sum_of_products.hpp 7-24"]),
   (92, [.once, .blank, .inc 56, .inc 86, .inc 88, .inc 104, .inc 130, .inc 133, .inc 145, .inc 146,
      .inc 152, .inc 153, .text "msg/callback.hpp 16-125"]),
   (93, [.once, .blank, .inc 71, .inc 72, .inc 74, .inc 78, .inc 80, .inc 86, .inc 90, .inc 92,
      .inc 95, .inc 97, .inc 128, .inc 130, .inc 132, .inc 133, .inc 134, .inc 145, .inc 146,
      .inc 147, .inc 0, .inc 1, .inc 24, .inc 25, .inc 51, .inc 152, .inc 153,
      .text "msg/detail/indexed_builder_common.hpp 31-207"]),
   (94, [.once, .blank, .inc 56, .inc 100, .inc 104, .inc 142, .inc 149, .inc 43, .inc 51, .inc 152,
      .inc 153, .text "msg/detail/indexed_handler_common.hpp 15-74"]),
   (95, [.once, .blank, .inc 78, .inc 80, .inc 87, .inc 90, .inc 130, .inc 145, .inc 146, .inc 147,
      .inc 152, .inc 153, .text "msg/detail/separate_sum_terms.hpp 16-43"]),
   (96, [.once, .blank, .inc 81, .inc 86, .inc 97, .inc 127, .inc 129, .inc 132, .inc 133, .inc 139,
      .inc 142, .inc 143, .inc 147, .inc 148, .inc 0, .inc 20, .inc 23, .inc 25, .inc 126,
      .inc 152, .inc 153, .text "msg/field.hpp 25-573"]),
   (97, [.once, .blank, .inc 86, .inc 130, .inc 132, .inc 133, .inc 142, .inc 145, .inc 147, .inc 1,
      .inc 23, .inc 24, .inc 25, .inc 43, .inc 51, .inc 152, .inc 153,
      .text "msg/field_matchers.hpp 21-371"]),
   (98, [.once, .blank, .inc 56, .inc 100, .inc 145, .inc 146, .inc 149, .text "msg/handler.hpp 10-43"]),
   (99, [.once, .blank, .inc 98, .inc 145, .inc 146, .text "msg/handler_builder.hpp 8-30"]),
   (100, [.once, .blank, .inc 131, .inc 133, .inc 140, .inc 147, .text "msg/handler_interface.hpp 8-45"]),
   (101, [.once, .blank, .inc 56, .inc 93, .inc 102, .inc 128, .inc 134, .inc 145, .inc 146, .inc 1,
      .inc 24, .inc 51, .inc 152, .text "msg/indexed_builder.hpp 17-84"]),
   (102, [.once, .blank, .inc 94, .inc 128, .inc 25, .text "msg/indexed_handler.hpp 9-27"]),
   (103, [.once, .blank, .inc 100, .inc 101, .inc 145, .text "msg/indexed_service.hpp 8-22"]),
   (104, [.once, .blank, .inc 86, .inc 90, .inc 96, .inc 97, .inc 129, .inc 132, .inc 133, .inc 138,
      .inc 139, .inc 142, .inc 143, .inc 145, .inc 146, .inc 147, .inc 149, .inc 12, .inc 13,
      .inc 14, .inc 15, .inc 0, .inc 25, .inc 43, .inc 51, .inc 152, .text "msg/message.hpp 31-854"]),
   (105, [.once, .blank, .inc 104, .inc 147, .inc 24, .inc 151, .inc 152, .inc 153,
      .text "msg/message_destructure.hpp 12-26"]),
   (106, [.once, .blank, .inc 2, .inc 3, .inc 4, .inc 5, .inc 6, .inc 7, .inc 8, .inc 9, .inc 10,
      .inc 130, .inc 133, .inc 147, .inc 152, .inc 153, .text "msg/send.hpp 20-73"]),
   (107, [.once, .blank, .inc 99, .inc 100, .text "msg/service.hpp 6-19"]),
   (108, [.once, .blank, .inc 140, .inc 145, .inc 24, .inc 152, .inc 153,
      .text "nexus/callback.hpp 10-78"]),
   (109, [.once, .blank, .inc 114, .inc 118, .inc 133, .inc 152, .text "nexus/conditionals.hpp 10-22"]),
   (110, [.once, .blank, .inc 109, .inc 111, .inc 112, .inc 115, .inc 119, .text "nexus/config.hpp 9-44"]),
   (111, [.once, .blank, .inc 113, .inc 146, .inc 12, .text "nexus/detail/components.hpp 9-21"]),
   (112, [.once, .blank, .inc 113, .inc 145, .inc 146, .inc 12, .inc 152,
      .text "nexus/detail/config_details.hpp 12-36"]),
   (113, [.once, .blank, .inc 145, .inc 147, .text "nexus/detail/config_item.hpp 6-16"]),
   (114, [.once, .blank, .inc 112, .inc 113, .inc 116, .inc 132, .inc 145, .inc 146, .inc 147,
      .text "nexus/detail/constexpr_conditional.hpp 12-50"]),
   (115, [.once, .blank, .inc 113, .inc 116, .inc 145, .inc 147, .text "nexus/detail/exports.hpp 9-26"]),
   (116, [.once, .blank, .inc 113, .inc 122, .inc 133, .inc 145, .text "nexus/detail/extend.hpp 9-34"]),
   (117, [.once, .blank, .inc 115, .inc 122, .inc 133, .inc 144, .inc 145, .inc 146, .inc 147, .inc 12,
      .inc 152, .text "nexus/detail/nexus_details.hpp 16-104"]),
   (118, [.once, .blank, .inc 112, .inc 113, .inc 119, .inc 130, .inc 132, .inc 145, .inc 146,
      .text "nexus/detail/runtime_conditional.hpp 12-91"]),
   (119, [.once, .blank, .inc 116, .inc 133, .inc 147, .inc 152, .text "nexus/extend.hpp 10-26"]),
   (120, [.once, .blank, .inc 133, .text "nexus/func_decl.hpp 5-12"]),
   (121, [.once, .blank, .inc 117, .inc 122, .inc 133, .inc 12, .inc 152, .text "nexus/nexus.hpp 12-65"]),
   (122, [.once, .blank, .inc 132, .inc 133, .inc 140, .inc 149, .inc 23, .inc 91, .inc 152,
      .text "nexus/service.hpp 12-85"]),
   (123, [.once, .blank, .inc 27, .inc 37, .inc 124, .inc 133, .text "seq/builder.hpp 9-20"]),
   (124, [.once, .blank, .inc 125, .inc 133, .inc 137, .inc 143, .inc 1, .inc 24, .inc 25, .inc 51,
      .text "seq/impl.hpp 14-110"]),
   (125, [.once, .blank, .inc 31, .inc 56, .inc 118, .inc 133, .inc 25, .text "seq/step.hpp 11-61"])]

/-- They are guarded and include each other without conditions. -/
theorem tidy : Tidy headers := tidy_of (by decide +kernel)

/-- C134 for this library: `cib/cib.hpp` is number 18. -/
theorem C134_this_library (subst : String → String) :
    ∃ r, release subst headers 96 18 = some r ∧
      (∀ q, .inc q ∈ r → headers.lookup q = none ∧ ∃ p ls, headers.lookup p = some ls ∧ .inc q ∈ ls) ∧
      ∀ cond, ∃ out out', library headers cond 96 18 = some out ∧
        alone cond r = some out' ∧ texts out' = (texts out).map subst ∧
        ∀ n, ∀ q ∈ systemsBefore n out, q ∈ systemsBefore n out' :=
  C134_release tidy (by decide +kernel)
    ⟨[.once, .blank, .text "cib/cib.hpp 3-35"], 19,
      [.inc 49, .inc 56, .inc 108, .inc 110, .inc 120, .inc 121, .inc 122],
      rfl, by decide, rfl, .text "cib/cib.hpp 3-35", by decide, by decide⟩
    (by decide)

end Verif.Release.Repo
